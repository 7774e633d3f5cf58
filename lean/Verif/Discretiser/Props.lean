import Verif.Discretiser.Spec
import Mathlib.Tactic.Linarith
import Mathlib.Tactic.Ring
import Mathlib.Tactic.FieldSimp
import Mathlib.Tactic.NormNum
import Mathlib.Tactic.Positivity
import Mathlib.Data.Rat.Floor
import Mathlib.Data.List.GetD

/-!
# Properties of the discretiser
-/

namespace Verif.Discretiser

section
variable {K : Type} [Field K] [LinearOrder K]

theorem insertionSort_eq_iff (l : List K) :
    l.insertionSort (· ≤ ·) = l ↔ l.Pairwise (· ≤ ·) := by
  constructor
  · intro h
    rw [← h]
    exact List.pairwise_insertionSort _ _
  · intro h
    exact h.insertionSort_eq

theorem chain {α : Type} {c1 c2 c3 c4 c5 c6 c7 c8 c9 f : Prop} [Decidable c1] [Decidable c2]
    [Decidable c3] [Decidable c4] [Decidable c5] [Decidable c6] [Decidable c7] [Decidable c8]
    [Decidable c9] [Decidable f] (e d : α) :
    (if c1 then e else if c2 then e else if c3 then e else if c4 then e else if c5 then e
      else if c6 then e else if c7 then e else if c8 then e else if c9 then e
      else if f then d else d) =
    if c1 ∨ c2 ∨ c3 ∨ c4 ∨ c5 ∨ c6 ∨ c7 ∨ c8 ∨ c9 then e else d := by
  by_cases h1 : c1 <;> simp only [h1, if_true, if_false, true_or, false_or]
  by_cases h2 : c2 <;> simp only [h2, if_true, if_false, true_or, false_or]
  by_cases h3 : c3 <;> simp only [h3, if_true, if_false, true_or, false_or]
  by_cases h4 : c4 <;> simp only [h4, if_true, if_false, true_or, false_or]
  by_cases h5 : c5 <;> simp only [h5, if_true, if_false, true_or, false_or]
  by_cases h6 : c6 <;> simp only [h6, if_true, if_false, true_or, false_or]
  by_cases h7 : c7 <;> simp only [h7, if_true, if_false, true_or, false_or]
  by_cases h8 : c8 <;> simp only [h8, if_true, if_false, true_or, false_or]
  by_cases h9 : c9 <;> simp only [h9, if_true, if_false, ite_self]

theorem prop_core {U Q O F P b o n p A B C D : Prop} (d1 : U → ¬ O) (d2 : U → ¬ F) (d3 : U → ¬ P)
    (d4 : Q → ¬ O) (d5 : Q → ¬ F) (d6 : Q → ¬ P) (d7 : O → ¬ F) (d8 : O → ¬ P) (d9 : F → ¬ P) :
    ¬ (¬ (U ∨ Q ∨ O ∨ F ∨ P) ∨ ((U ∨ Q) ∧ b) ∨ (O ∧ o) ∨ ¬ D ∨ (F ∧ n) ∨ ¬ C ∨ (P ∧ p) ∨ ¬ B ∨ ¬ A) ↔
      (U ∧ ¬ b ∨ Q ∧ ¬ b ∨ O ∧ ¬ o ∨ F ∧ ¬ n ∨ P ∧ ¬ p) ∧ D ∧ C ∧ A ∧ B := by
  by_cases U
  · simp_all; tauto
  by_cases Q
  · simp_all; tauto
  by_cases O
  · simp_all; tauto
  by_cases F
  · simp_all; tauto
  simp_all; tauto

/-! ### C30 -/

/-- **C30**: the constructor raises iff the method is unknown, or its parameter is missing, or one of
the parameters given is out of range (whether the method uses it or not).  Partial: the number of
buckets is not checked, see `create_accepts_zero_buckets`. -/
theorem create_ok_iff_partial (m : String) (b : Option ℤ) (o : Option K) (n p : Option (List K)) :
    ((∃ d, create m b o n p = .ok d) ↔
      (m = "uniform" ∧ b ≠ none ∨ m = "quantile" ∧ b ≠ none ∨ m = "outlier" ∧ o ≠ none ∨
        m = "fixed" ∧ n ≠ none ∨ m = "percentiles" ∧ p ≠ none) ∧
      (∀ x, o = some x → 0 ≤ x ∧ x < 1 / 2) ∧
      (∀ l, n = some l → l.Pairwise (· ≤ ·)) ∧
      (∀ l, p = some l → l.Pairwise (· ≤ ·) ∧ ∀ x ∈ l, 0 ≤ x ∧ x ≤ 1)) ∧
    (∀ d, create m b o n p = .ok d → d = ⟨m, b, o, n, p⟩) ∧
    (∀ e, create m b o n p = .error e → e = .valueError) := by
  have hO : o.any (fun o => decide ¬ (0 ≤ o ∧ o < 1 / 2)) = true ↔
      ¬ ∀ x, o = some x → 0 ≤ x ∧ x < 1 / 2 := by
    cases o <;> simp [imp_iff_not_or]
  have hN : n.any (fun l => decide (l.insertionSort (· ≤ ·) ≠ l)) = true ↔
      ¬ ∀ l, n = some l → l.Pairwise (· ≤ ·) := by
    simp only [Ne, insertionSort_eq_iff]
    cases n <;> simp
  have hP : p.any (fun l => decide (l.insertionSort (· ≤ ·) ≠ l)) = true ↔
      ¬ ∀ l, p = some l → l.Pairwise (· ≤ ·) := by
    simp only [Ne, insertionSort_eq_iff]
    cases p <;> simp
  have hP' : p.any (fun l => decide ¬ l.all fun p => decide (0 ≤ p ∧ p ≤ 1)) = true ↔
      ¬ ∀ l, p = some l → ∀ x ∈ l, 0 ≤ x ∧ x ≤ 1 := by
    cases p <;> simp
  have hP2 : (∀ l, p = some l → l.Pairwise (· ≤ ·) ∧ ∀ x ∈ l, 0 ≤ x ∧ x ≤ 1) ↔
      (∀ l, p = some l → l.Pairwise (· ≤ ·)) ∧ ∀ l, p = some l → ∀ x ∈ l, 0 ≤ x ∧ x ≤ 1 := by
    constructor
    · intro h
      exact ⟨fun l hl => (h l hl).1, fun l hl => (h l hl).2⟩
    · rintro ⟨h1, h2⟩ l hl
      exact ⟨h1 l hl, h2 l hl⟩
  have hif : create m b o n p =
      if (m ∉ ["uniform", "quantile", "outlier", "fixed", "percentiles"] ∨
        (m ∈ ["uniform", "quantile"] ∧ b = none) ∨ (m = "outlier" ∧ o = none) ∨
        (¬ ∀ x, o = some x → 0 ≤ x ∧ x < 1 / 2) ∨ (m = "fixed" ∧ n = none) ∨
        (¬ ∀ l, n = some l → l.Pairwise (· ≤ ·)) ∨ (m = "percentiles" ∧ p = none) ∨
        (¬ ∀ l, p = some l → ∀ x ∈ l, 0 ≤ x ∧ x ≤ 1) ∨ ¬ ∀ l, p = some l → l.Pairwise (· ≤ ·))
      then .error .valueError else .ok ⟨m, b, o, n, p⟩ := by
    refine (chain _ _).trans (if_congr ?_ rfl rfl)
    rw [hO, hN, hP, hP', Option.isNone_iff_eq_none, Option.isNone_iff_eq_none,
      Option.isNone_iff_eq_none, Option.isNone_iff_eq_none]
  rw [hif, hP2]
  clear hif hO hN hP hP' hP2
  have hmm : m ∈ ["uniform", "quantile", "outlier", "fixed", "percentiles"] ↔ m = "uniform" ∨
      m = "quantile" ∨ m = "outlier" ∨ m = "fixed" ∨ m = "percentiles" := by simp
  have hmm' : m ∈ ["uniform", "quantile"] ↔ m = "uniform" ∨ m = "quantile" := by simp
  have hd : ∀ s t : String, s ≠ t → m = s → m ≠ t := by
    rintro s t h rfl; exact h
  have d1 := hd "uniform" "outlier" (by decide)
  have d2 := hd "uniform" "fixed" (by decide)
  have d3 := hd "uniform" "percentiles" (by decide)
  have d4 := hd "quantile" "outlier" (by decide)
  have d5 := hd "quantile" "fixed" (by decide)
  have d6 := hd "quantile" "percentiles" (by decide)
  have d7 := hd "outlier" "fixed" (by decide)
  have d8 := hd "outlier" "percentiles" (by decide)
  have d9 := hd "fixed" "percentiles" (by decide)
  clear hd
  split_ifs with h <;> rw [hmm, hmm'] at h
  · refine ⟨⟨?_, fun hh => ?_⟩, ?_, ?_⟩
    · rintro ⟨d, hd⟩; cases hd
    · exact absurd h ((prop_core d1 d2 d3 d4 d5 d6 d7 d8 d9).2 hh)
    · intro d hd; cases hd
    · intro e he; cases he; rfl
  · refine ⟨⟨fun _ => ?_, fun hh => ⟨_, rfl⟩⟩, ?_, ?_⟩
    · exact (prop_core d1 d2 d3 d4 d5 d6 d7 d8 d9).1 h
    · intro d hd; cases hd; rfl
    · intro e he; cases he

/-- A discretiser with no buckets is accepted. -/
theorem create_accepts_zero_buckets :
    create (K := K) "quantile" (some 0) none none none = .ok ⟨"quantile", some 0, none, none, none⟩ := by
  simp [create]

/-! ### C29 -/

theorem searchRight_spec {bins : List K} (hs : bins.Pairwise (· ≤ ·)) (x : K) (fuel lo hi : ℕ)
    (hlh : lo ≤ hi) (hhi : hi ≤ bins.length) (hf : hi - lo ≤ fuel)
    (h1 : ∀ (i : ℕ) (p : K), bins[i]? = some p → i < lo → p ≤ x)
    (h2 : ∀ (i : ℕ) (p : K), bins[i]? = some p → hi ≤ i → x < p) :
    InBucket bins x (searchRight bins x fuel lo hi) := by
  induction fuel generalizing lo hi with
  | zero =>
    have : lo = hi := by omega
    subst this
    exact ⟨hhi, h1, h2⟩
  | succ fuel ih =>
    rw [searchRight]
    by_cases hlt : lo < hi
    · rw [if_pos hlt]
      simp only
      have hm : lo + (hi - lo) / 2 < hi := by omega
      have hml : lo + (hi - lo) / 2 < bins.length := by omega
      have hmono : ∀ (i j : ℕ) (p q : K), bins[i]? = some p → bins[j]? = some q → i ≤ j → p ≤ q := by
        intro i j p q hi hj hij
        rw [List.getElem?_eq_some_iff] at hi hj
        obtain ⟨hi', rfl⟩ := hi
        obtain ⟨hj', rfl⟩ := hj
        rcases Nat.lt_or_eq_of_le hij with h | h
        · exact List.pairwise_iff_getElem.1 hs i j hi' hj' h
        · subst h; exact le_refl _
      have hget : bins[lo + (hi - lo) / 2]? = some (bins.getD (lo + (hi - lo) / 2) 0) := by
        rw [List.getD_eq_getElem?_getD, List.getElem?_eq_getElem hml]; rfl
      split
      · rename_i hle
        refine ih _ _ (by omega) hhi (by omega) ?_ h2
        intro i p hp hi
        exact (hmono i _ p _ hp hget (by omega)).trans hle
      · rename_i hle
        refine ih _ _ (by omega) (by omega) (by omega) h1 ?_
        intro i p hp hi
        exact lt_of_lt_of_le (not_le.1 hle) (hmono _ i _ p hget hp hi)
    · rw [if_neg hlt]
      have : lo = hi := by omega
      subst this
      exact ⟨hhi, h1, h2⟩

theorem digitize_spec {bins : List K} (hs : bins.Pairwise (· ≤ ·)) (data : List K) :
    ∃ out, digitize data bins = .ok out ∧ List.Forall₂ (InBucket bins) data out := by
  refine ⟨_, by rw [digitize, if_pos ((insertionSort_eq_iff _).2 hs)], ?_⟩
  rw [List.forall₂_map_right_iff, List.forall₂_same]
  intro x _
  refine searchRight_spec hs x _ _ _ (by omega) (by omega) (by omega) (fun _ _ _ h => by omega) ?_
  intro i p hp hi
  rw [List.getElem?_eq_none hi] at hp
  cases hp

/-- The bucket of a value is the number of split points at most as large as it. -/
theorem inBucket_count {points : List K} {x : K} {k : ℕ} (h : InBucket points x k) :
    k = points.countP (· ≤ x) := by
  obtain ⟨h1, h2, h3⟩ := h
  conv_rhs => rw [← List.take_append_drop k points]
  rw [List.countP_append, List.countP_eq_length.2, List.countP_eq_zero.2]
  · simp [h1]
  · intro p hp
    obtain ⟨i, hi⟩ := List.mem_iff_getElem?.1 hp
    rw [List.getElem?_drop] at hi
    simpa using h3 _ _ hi (by omega)
  · intro p hp
    obtain ⟨i, hi⟩ := List.mem_iff_getElem?.1 hp
    rw [List.getElem?_take] at hi
    split at hi
    · simpa using h2 _ _ hi ‹_›
    · cases hi

theorem inBucket_mono {points : List K} {x y : K} {k l : ℕ} (hx : InBucket points x k)
    (hy : InBucket points y l) (h : x ≤ y) : k ≤ l := by
  rw [inBucket_count hx, inBucket_count hy]
  apply List.countP_mono_left
  intro p _ hp
  simp only [decide_eq_true_eq] at hp ⊢
  exact hp.trans h

end

section
variable {K : Type} [Field K] [LinearOrder K] [IsStrictOrderedRing K] [FloorSemiring K]

/-! ### Quantiles -/

/-- The value `quantile1` computes when it succeeds. -/
def qv (x : List K) (q : K) : K :=
  x.getD ⌊q * ((x.length - 1 : ℕ) : K)⌋₊ 0 +
    (x.getD (min (⌊q * ((x.length - 1 : ℕ) : K)⌋₊ + 1) (x.length - 1)) 0 -
      x.getD ⌊q * ((x.length - 1 : ℕ) : K)⌋₊ 0) *
      (q * ((x.length - 1 : ℕ) : K) - (⌊q * ((x.length - 1 : ℕ) : K)⌋₊ : K))

theorem quantile1_ok {x : List K} (hx : x ≠ []) {q : K} (h0 : 0 ≤ q) (h1 : q ≤ 1) :
    quantile1 x q = .ok (qv x q) := by
  rw [quantile1, if_neg (by simp [h0, h1]), if_neg hx]
  rfl

theorem quantile_ok {x : List K} (hx : x ≠ []) {qs : List K} (h : ∀ q ∈ qs, 0 ≤ q ∧ q ≤ 1) :
    quantile x qs = .ok (qs.map (qv x)) := by
  unfold quantile
  induction qs with
  | nil => rfl
  | cons q qs ih =>
    rw [List.mapM_cons, quantile1_ok hx (h q (by simp)).1 (h q (by simp)).2,
      ih fun q hq => h q (by simp [hq])]
    rfl

theorem getD_mono {x : List K} (hs : x.Pairwise (· ≤ ·)) {i j : ℕ} (hij : i ≤ j)
    (hj : j < x.length) : x.getD i 0 ≤ x.getD j 0 := by
  rw [List.getD_eq_getElem _ _ (by omega), List.getD_eq_getElem _ _ hj]
  rcases Nat.lt_or_eq_of_le hij with h | h
  · exact List.pairwise_iff_getElem.1 hs i j (by omega) hj h
  · subst h; exact le_refl _

/-- Facts about the position of a quantile. -/
theorem pos_facts {x : List K} (hx : x ≠ []) {q : K} (h0 : 0 ≤ q) (h1 : q ≤ 1) :
    ⌊q * ((x.length - 1 : ℕ) : K)⌋₊ ≤ x.length - 1 ∧
      0 ≤ q * ((x.length - 1 : ℕ) : K) - (⌊q * ((x.length - 1 : ℕ) : K)⌋₊ : K) ∧
      q * ((x.length - 1 : ℕ) : K) - (⌊q * ((x.length - 1 : ℕ) : K)⌋₊ : K) ≤ 1 ∧
      x.length - 1 < x.length := by
  have hn : (0 : K) ≤ ((x.length - 1 : ℕ) : K) := Nat.cast_nonneg _
  have hh : 0 ≤ q * ((x.length - 1 : ℕ) : K) := mul_nonneg h0 hn
  refine ⟨?_, ?_, ?_, ?_⟩
  · apply Nat.floor_le_of_le
    calc q * ((x.length - 1 : ℕ) : K) ≤ 1 * ((x.length - 1 : ℕ) : K) := by gcongr
      _ = _ := one_mul _
  · linarith [Nat.floor_le hh]
  · linarith [Nat.lt_floor_add_one (q * ((x.length - 1 : ℕ) : K))]
  · have := List.length_pos_iff.2 hx
    omega

theorem qv_between {x : List K} (hx : x ≠ []) (hs : x.Pairwise (· ≤ ·)) {q : K} (h0 : 0 ≤ q)
    (h1 : q ≤ 1) : x.getD ⌊q * ((x.length - 1 : ℕ) : K)⌋₊ 0 ≤ qv x q ∧
      qv x q ≤ x.getD (min (⌊q * ((x.length - 1 : ℕ) : K)⌋₊ + 1) (x.length - 1)) 0 := by
  obtain ⟨ha, hb, hc, hd⟩ := pos_facts hx h0 h1
  have hm := getD_mono hs (i := ⌊q * ((x.length - 1 : ℕ) : K)⌋₊)
    (j := min (⌊q * ((x.length - 1 : ℕ) : K)⌋₊ + 1) (x.length - 1)) (by omega) (by omega)
  unfold qv
  constructor
  · nlinarith [mul_nonneg (sub_nonneg.2 hm) hb]
  · nlinarith [mul_nonneg (sub_nonneg.2 hm) (sub_nonneg.2 hc)]

theorem qv_mono {x : List K} (hx : x ≠ []) (hs : x.Pairwise (· ≤ ·)) {q q' : K} (h0 : 0 ≤ q)
    (hqq : q ≤ q') (h1 : q' ≤ 1) : qv x q ≤ qv x q' := by
  obtain ⟨ha, hb, hc, hd⟩ := pos_facts hx h0 (hqq.trans h1)
  obtain ⟨ha', hb', hc', -⟩ := pos_facts hx (h0.trans hqq) h1
  have hn : (0 : K) ≤ ((x.length - 1 : ℕ) : K) := Nat.cast_nonneg _
  have hh : q * ((x.length - 1 : ℕ) : K) ≤ q' * ((x.length - 1 : ℕ) : K) := by gcongr
  have hfl := Nat.floor_le_floor hh
  rcases Nat.lt_or_eq_of_le hfl with h | h
  · refine (qv_between hx hs h0 (hqq.trans h1)).2.trans
      (le_trans ?_ (qv_between hx hs (h0.trans hqq) h1).1)
    exact getD_mono hs (by omega) (by omega)
  · unfold qv
    rw [← h]
    have hm := getD_mono hs (i := ⌊q * ((x.length - 1 : ℕ) : K)⌋₊)
      (j := min (⌊q * ((x.length - 1 : ℕ) : K)⌋₊ + 1) (x.length - 1)) (by omega) (by omega)
    nlinarith [mul_le_mul_of_nonneg_left (sub_le_sub_right hh (⌊q * ((x.length - 1 : ℕ) : K)⌋₊ : K))
      (sub_nonneg.2 hm)]

theorem sorted_unique {s t : List K} (h : s.Perm t) (hs : s.Pairwise (· ≤ ·))
    (ht : t.Pairwise (· ≤ ·)) : s = t :=
  List.Perm.eq_of_pairwise (fun _ _ _ _ => le_antisymm) hs ht h

theorem qv_isQuantile (data : List K) {q : K} (h0 : 0 ≤ q) :
    IsQuantile data q (qv (data.insertionSort (· ≤ ·)) q) := by
  intro s hp hs i a hi
  have : s = data.insertionSort (· ≤ ·) := sorted_unique (hp.trans (List.perm_insertionSort _ _).symm)
    hs (List.pairwise_insertionSort _ _)
  rw [← this]
  have hget : ∀ (i : ℕ) (a : K), s[i]? = some a → s.getD i 0 = a := by
    intro i a h
    rw [List.getD_eq_getElem?_getD, h]; rfl
  have hpos : 0 ≤ q * ((s.length - 1 : ℕ) : K) := mul_nonneg h0 (Nat.cast_nonneg _)
  have key : ∀ (i : ℕ) (a : K), s[i]? = some a → q * ((s.length - 1 : ℕ) : K) = i → qv s q = a := by
    intro i a hi h
    unfold qv
    rw [h, Nat.floor_natCast, hget i a hi]
    simp
  refine ⟨key i a hi, ?_⟩
  intro b hb h1 h2
  rcases lt_or_eq_of_le h2 with h2 | h2
  · have hf : ⌊q * ((s.length - 1 : ℕ) : K)⌋₊ = i := (Nat.floor_eq_iff hpos).2 ⟨h1, h2⟩
    have hlt : i + 1 < s.length := by
      by_contra hc
      rw [List.getElem?_eq_none (by omega)] at hb
      cases hb
    unfold qv
    rw [hf, show min (i + 1) (s.length - 1) = i + 1 by omega, hget _ _ hi, hget _ _ hb]
    ring
  · rw [key (i + 1) b hb (by rw [h2]; push_cast; rfl), h2]
    ring

/-! ### Fitting -/

theorem pyRange_length (b : ℤ) : (pyRange b).length = b.toNat := List.length_range

theorem max?_insertionSort {data : List K} (hd : data ≠ []) :
    ∃ mx mn, (data.insertionSort (· ≤ ·)).max? = some mx ∧
      (data.insertionSort (· ≤ ·)).min? = some mn ∧ IsMax data mx ∧ IsMin data mn := by
  have hne : data.insertionSort (· ≤ ·) ≠ [] := by
    intro h
    have := (List.perm_insertionSort (· ≤ ·) data).length_eq
    rw [h] at this
    exact hd (List.length_eq_zero_iff.1 this.symm)
  have hmem : ∀ x, x ∈ data.insertionSort (· ≤ ·) ↔ x ∈ data := fun x =>
    (List.perm_insertionSort (· ≤ ·) data).mem_iff
  obtain ⟨mx, hmx⟩ := Option.isSome_iff_exists.1 (List.isSome_max?_of_ne_nil hne)
  obtain ⟨mn, hmn⟩ := Option.isSome_iff_exists.1 (List.isSome_min?_of_ne_nil hne)
  refine ⟨mx, mn, hmx, hmn, ?_, ?_⟩
  · rw [List.max?_eq_some_iff] at hmx
    exact ⟨(hmem _).1 hmx.1, fun x hx => hmx.2 x ((hmem _).2 hx)⟩
  · rw [List.min?_eq_some_iff] at hmn
    exact ⟨(hmem _).1 hmn.1, fun x hx => hmn.2 x ((hmem _).2 hx)⟩

theorem sort_ne_nil {data : List K} (hd : data ≠ []) : data.insertionSort (· ≤ ·) ≠ [] := by
  intro h
  have := (List.perm_insertionSort (· ≤ ·) data).length_eq
  rw [h] at this
  exact hd (List.length_eq_zero_iff.1 this.symm)

/-- What the constructor guarantees and `fit` keeps. -/
structure Valid (d : Disc K) : Prop where
  method : d.method = "uniform" ∧ d.numBuckets ≠ none ∨ d.method = "quantile" ∧ d.numBuckets ≠ none ∨
    d.method = "outlier" ∧ d.outlier ≠ none ∨ d.method = "fixed" ∧ d.numeric ≠ none ∨
    d.method = "percentiles" ∧ d.percentiles ≠ none
  outlier : ∀ x, d.outlier = some x → 0 ≤ x ∧ x < 1 / 2
  numeric : ∀ l, d.numeric = some l → l.Pairwise (· ≤ ·)
  percentiles : ∀ l, d.percentiles = some l → l.Pairwise (· ≤ ·) ∧ ∀ x ∈ l, 0 ≤ x ∧ x ≤ 1

theorem asked_quantile_range {b : ℤ} (hb : b ≠ 0) :
    ∀ q ∈ (pyRange (b - 1)).map fun n : ℕ => 1 / (b : K) * ((n : K) + 1), 0 ≤ q ∧ q ≤ 1 := by
  intro q hq
  obtain ⟨n, hn, rfl⟩ := List.mem_map.1 hq
  rw [pyRange, List.mem_range] at hn
  have hb1 : (n : ℤ) + 1 ≤ b := by omega
  have hb2 : ((n : K) + 1) ≤ (b : K) := by exact_mod_cast hb1
  have hb3 : (0 : K) < b := by
    have : (0 : ℤ) < b := by omega
    exact_mod_cast this
  have hn0 : (0 : K) ≤ n := Nat.cast_nonneg n
  refine ⟨by positivity, ?_⟩
  rw [one_div, inv_mul_le_iff₀ hb3, mul_one]
  exact hb2

theorem asked_quantile_sorted (b : ℤ) :
    ((pyRange (b - 1)).map fun n : ℕ => 1 / (b : K) * ((n : K) + 1)).Pairwise (· ≤ ·) := by
  by_cases hb : b ≤ 1
  · rw [pyRange, show (b - 1).toNat = 0 by omega]
    simp
  · have hb3 : (0 : K) < b := by
      have : (0 : ℤ) < b := by omega
      exact_mod_cast this
    rw [List.pairwise_map, pyRange]
    refine List.pairwise_lt_range.imp ?_
    intro m n h
    have : (m : K) ≤ n := by exact_mod_cast h.le
    have hp : 0 < 1 / (b : K) := by positivity
    nlinarith

/-- The outcome of `fit` for the methods based on quantiles. -/
theorem fitPoints_quantiles {d : Disc K} (hv : Valid d) {data : List K} (hd : data ≠ []) :
    (∀ b, d.method = "quantile" → d.numBuckets = some b → b ≠ 0 → fitPoints d data =
      .ok (((pyRange (b - 1)).map fun n : ℕ => 1 / (b : K) * ((n : K) + 1)).map
        (qv (data.insertionSort (· ≤ ·))))) ∧
    (∀ o, d.method = "outlier" → d.outlier = some o → fitPoints d data =
      .ok ([o, 1 - o].map (qv (data.insertionSort (· ≤ ·))))) ∧
    (∀ ps, d.method = "percentiles" → d.percentiles = some ps → fitPoints d data =
      .ok (ps.map (qv (data.insertionSort (· ≤ ·))))) := by
  have hne := sort_ne_nil hd
  refine ⟨?_, ?_, ?_⟩
  · intro b hm hb hb0
    simp only [fitPoints, hm, hb]
    rw [if_neg (by decide), if_pos trivial, if_neg hb0]
    exact quantile_ok hne (asked_quantile_range hb0)
  · intro o hm ho
    simp only [fitPoints, hm, ho]
    rw [if_neg (by decide), if_neg (by decide), if_pos trivial]
    apply quantile_ok hne
    have := hv.outlier o ho
    intro q hq
    simp only [List.mem_cons, List.not_mem_nil, or_false] at hq
    rcases hq with rfl | rfl
    · exact ⟨this.1, by linarith [this.2]⟩
    · exact ⟨by linarith [this.2], by linarith [this.1]⟩
  · intro ps hm hp
    simp only [fitPoints, hm, hp]
    rw [if_neg (by decide), if_neg (by decide), if_neg (by decide), if_pos trivial, percentile,
      List.map_map]
    have : ps.map ((fun p => p / 100) ∘ fun p : K => p * 100) = ps := by
      conv_rhs => rw [← List.map_id ps]
      apply List.map_congr_left
      intro p _
      simp only [Function.comp, id]
      rw [mul_div_assoc, div_self (by norm_num), mul_one]
    rw [this]
    exact quantile_ok hne (hv.percentiles ps hp).2

theorem qv_sorted {x : List K} (hx : x ≠ []) (hs : x.Pairwise (· ≤ ·)) {qs : List K}
    (hq : qs.Pairwise (· ≤ ·)) (hr : ∀ q ∈ qs, 0 ≤ q ∧ q ≤ 1) : (qs.map (qv x)).Pairwise (· ≤ ·) := by
  rw [List.pairwise_map]
  refine hq.imp_of_mem ?_
  intro a b ha hb hab
  exact qv_mono hx hs (hr a ha).1 hab (hr b hb).2

theorem qv_range {data : List K} (hd : data ≠ []) {q lo hi : K} (h0 : 0 ≤ q) (h1 : q ≤ 1)
    (hlo : IsMin data lo) (hhi : IsMax data hi) :
    lo ≤ qv (data.insertionSort (· ≤ ·)) q ∧ qv (data.insertionSort (· ≤ ·)) q ≤ hi := by
  have hne := sort_ne_nil hd
  have hs := List.pairwise_insertionSort (· ≤ ·) data
  obtain ⟨ha, -, -, hl⟩ := pos_facts hne h0 h1
  obtain ⟨h2, h3⟩ := qv_between hne hs h0 h1
  have hmem : ∀ i, i < (data.insertionSort (· ≤ ·)).length →
      (data.insertionSort (· ≤ ·)).getD i 0 ∈ data := by
    intro i hi
    rw [List.getD_eq_getElem _ _ hi]
    exact (List.perm_insertionSort (· ≤ ·) data).mem_iff.1 (List.getElem_mem _)
  exact ⟨(hlo.2 _ (hmem _ (by omega))).trans h2, h3.trans (hhi.2 _ (hmem _ (by omega)))⟩

theorem fitPoints_uniform {d : Disc K} {data : List K} {lo hi : K} (hlo : IsMin data lo)
    (hhi : IsMax data hi) {b : ℤ} (hm : d.method = "uniform") (hb : d.numBuckets = some b) :
    fitPoints d data =
      .ok ((pyRange (b - 1)).map fun n : ℕ => lo + (hi - lo) / (b : K) * ((n : K) + 1)) := by
  have hd : data ≠ [] := List.ne_nil_of_mem hlo.1
  obtain ⟨mx, mn, h1, h2, h3, h4⟩ := max?_insertionSort hd
  have e1 : mx = hi := le_antisymm (hhi.2 _ h3.1) (h3.2 _ hhi.1)
  have e2 : mn = lo := le_antisymm (h4.2 _ hlo.1) (hlo.2 _ h4.1)
  subst e1 e2
  simp only [fitPoints, hm, hb, h1, h2, if_true]

theorem uniform_sorted {lo hi : K} (h : lo ≤ hi) (b : ℤ) :
    ((pyRange (b - 1)).map fun n : ℕ => lo + (hi - lo) / (b : K) * ((n : K) + 1)).Pairwise
      (· ≤ ·) := by
  by_cases hb : b ≤ 1
  · rw [pyRange, show (b - 1).toNat = 0 by omega]
    simp
  · have hb3 : (0 : K) < b := by
      have : (0 : ℤ) < b := by omega
      exact_mod_cast this
    rw [List.pairwise_map, pyRange]
    refine List.pairwise_lt_range.imp ?_
    intro m n hmn
    have : (m : K) ≤ n := by exact_mod_cast hmn.le
    have hp : 0 ≤ (hi - lo) / (b : K) := div_nonneg (sub_nonneg.2 h) hb3.le
    nlinarith

/-- Whatever the outcome of a fit, split points are in increasing order. -/
theorem fitPoints_sorted {d : Disc K} (hv : Valid d) {data pts : List K}
    (h : fitPoints d data = .ok pts) : pts.Pairwise (· ≤ ·) := by
  by_cases hd : data = []
  · subst hd
    have hq : ∀ qs, quantile ([] : List K) qs = .ok pts → pts = [] := by
      intro qs hq
      cases qs with
      | nil => cases hq; rfl
      | cons q qs =>
        rw [quantile, List.mapM_cons, quantile1] at hq
        split at hq <;> cases hq
    unfold fitPoints at h
    simp only [List.insertionSort_nil, List.max?_nil, List.min?_nil] at h
    split at h
    · split at h
      · cases h
      · rename_i hn _; cases hn
      · cases h
    · split at h
      · split at h
        · cases h
        · split at h
          · cases h
          · rw [hq _ h]; exact .nil
      · split at h
        · split at h
          · cases h
          · rw [hq _ h]; exact .nil
        · split at h
          · split at h
            · cases h
            · rw [hq _ h]; exact .nil
          · cases h
  · have hne := sort_ne_nil hd
    have hs := List.pairwise_insertionSort (· ≤ ·) data
    obtain ⟨q1, q2, q3⟩ := fitPoints_quantiles hv hd
    obtain ⟨hi, lo, -, -, hhi, hlo⟩ := max?_insertionSort hd
    rcases hv.method with ⟨hm, hb⟩ | ⟨hm, hb⟩ | ⟨hm, ho⟩ | ⟨hm, -⟩ | ⟨hm, hp⟩
    · obtain ⟨b, hb⟩ := Option.ne_none_iff_exists'.1 hb
      rw [fitPoints_uniform hlo hhi hm hb] at h
      cases h
      exact uniform_sorted (hlo.2 _ hhi.1) b
    · obtain ⟨b, hb⟩ := Option.ne_none_iff_exists'.1 hb
      by_cases hb0 : b = 0
      · simp [fitPoints, hm, hb, hb0] at h
      · rw [q1 b hm hb hb0] at h
        cases h
        exact qv_sorted hne hs (asked_quantile_sorted b) (asked_quantile_range hb0)
    · obtain ⟨o, ho⟩ := Option.ne_none_iff_exists'.1 ho
      rw [q2 o hm ho] at h
      cases h
      have := hv.outlier o ho
      apply qv_sorted hne hs
      · simp only [List.pairwise_cons, List.mem_singleton, forall_eq, List.not_mem_nil,
          false_implies, implies_true, List.Pairwise.nil, and_true]
        linarith [this.2]
      · intro q hq
        simp only [List.mem_cons, List.not_mem_nil, or_false] at hq
        rcases hq with rfl | rfl
        · exact ⟨this.1, by linarith [this.2]⟩
        · exact ⟨by linarith [this.2], by linarith [this.1]⟩
    · simp [fitPoints, hm] at h
    · obtain ⟨ps, hp⟩ := Option.ne_none_iff_exists'.1 hp
      rw [q3 ps hm hp] at h
      cases h
      exact qv_sorted hne hs (hv.percentiles ps hp).1 (hv.percentiles ps hp).2

theorem Reach.valid {d : Disc K} (h : Reach d) : Valid d := by
  induction h with
  | @create m b o n p d h =>
    obtain ⟨h1, h2, -⟩ := create_ok_iff_partial m b o n p
    obtain ⟨h3, h4, h5, h6⟩ := h1.1 ⟨d, h⟩
    rw [h2 d h]
    exact ⟨h3, h4, h5, h6⟩
  | @fit d d' data r _ hf ih =>
    unfold Discretiser.fit at hf
    split at hf
    · cases hf; exact ih
    · rename_i l hl
      cases hf
      refine ⟨?_, ih.outlier, ?_, ih.percentiles⟩
      · rcases ih.method with h | h | h | h | h <;> simp [h]
      · intro l' hl'
        cases hl'
        exact fitPoints_sorted ih hl

/-! ### C29 -/

/-- **C29**: with split points, `transform` puts each value into the bucket between the two split
points around it (the lower one included).  Its number is the number of split points at most as large
as the value, so it is at most the number of split points, and larger values never get a smaller
bucket. -/
theorem transform_correct {d : Disc K} (hr : Reach d) {points : List K}
    (hp : d.numeric = some points) (data : List K) :
    ∃ out, transform d data = .ok out ∧
      List.Forall₂ (fun x k => InBucket points x k ∧ k = points.countP (· ≤ x) ∧ k ≤ points.length)
        data out ∧
      ∀ (i j : ℕ) (x y : K) (k l : ℕ), data[i]? = some x → data[j]? = some y → out[i]? = some k →
        out[j]? = some l → x ≤ y → k ≤ l := by
  obtain ⟨out, h1, h2⟩ := digitize_spec (hr.valid.numeric points hp) data
  refine ⟨out, by rw [transform, hp]; exact h1, h2.imp fun x k h => ⟨h, inBucket_count h, h.1⟩, ?_⟩
  intro i j x y k l hi hj hk hl hxy
  have key : ∀ (i : ℕ) (x : K) (k : ℕ), data[i]? = some x → out[i]? = some k →
      InBucket points x k := by
    intro i x k hx hk
    obtain ⟨hi, rfl⟩ := List.getElem?_eq_some_iff.1 hx
    obtain ⟨hi', rfl⟩ := List.getElem?_eq_some_iff.1 hk
    exact (List.forall₂_iff_get.1 h2).2 i hi hi'
  exact inBucket_mono (key i x k hi hk) (key j y l hj hl) hxy

/-- **C29**, for split points in decreasing order: `np.digitize` accepts them, and the bucket of a value is the number of split points that are larger
than it.  The constructor rejects such split points, so `transform` gets them only from a caller that sets the attribute. -/
theorem digitize_decreasing {bins : List K} (hs : bins.Pairwise (· ≥ ·)) (hn : ¬ bins.Pairwise (· ≤ ·)) (data : List K) :
    ∃ out, digitize data bins = .ok out ∧ List.Forall₂ (fun x k => k = bins.countP (x < ·)) data out := by
  have h1 : bins.insertionSort (· ≥ ·) = bins := hs.insertionSort_eq
  refine ⟨_, by rw [digitize, if_neg (fun h => hn ((insertionSort_eq_iff _).1 h)), if_pos h1], ?_⟩
  rw [List.forall₂_map_right_iff, List.forall₂_same]
  intro x _
  have h2 : InBucket bins.reverse x (searchRight bins.reverse x bins.length 0 bins.length) := by
    refine searchRight_spec (List.pairwise_reverse.2 hs) x _ _ _ (by simp) (by simp) (by simp) (fun _ _ _ h => by omega) ?_
    intro i p hp hi
    rw [List.getElem?_eq_none (by simpa using hi)] at hp
    cases hp
  rw [inBucket_count h2, List.countP_reverse]
  have h3 := List.length_eq_countP_add_countP (fun p => decide (p ≤ x)) (l := bins)
  have h4 : bins.countP (fun p => decide (¬ (decide (p ≤ x)) = true)) = bins.countP (x < ·) := by
    refine List.countP_congr fun p _ => ?_
    simp
  omega

/-- **C29**: without split points (before `fit`), `transform` raises. -/
theorem transform_unfitted {d : Disc K} (hp : d.numeric = none) (data : List K) :
    transform d data = .error .typeError := by
  rw [transform, hp]

/-! ### C31 -/

/-- **C31**: fitting. -/
theorem fit_correct {d : Disc K} (hr : Reach d) {data : List K} {lo hi : K} (hlo : IsMin data lo)
    (hhi : IsMax data hi) (hb : ∀ b, d.method = "uniform" ∨ d.method = "quantile" →
      d.numBuckets = some b → 1 ≤ b) :
    d.method = "fixed" ∧ fit d data = (d, .error .runtimeError) ∨
    d.method ≠ "fixed" ∧ ∃ pts, fit d data = ({ d with numeric := some pts }, .ok ()) ∧
      pts.Pairwise (· ≤ ·) ∧ (∀ p ∈ pts, lo ≤ p ∧ p ≤ hi) ∧
      (d.method = "uniform" → ∃ b : ℕ, d.numBuckets = some (b : ℤ) ∧ pts.length = b - 1 ∧
        ∀ (i : ℕ) (p : K), pts[i]? = some p → p = lo + (hi - lo) * ((i + 1 : ℕ) / b)) ∧
      (d.method = "quantile" → ∃ b : ℕ, d.numBuckets = some (b : ℤ) ∧ pts.length = b - 1 ∧
        ∀ (i : ℕ) (p : K), pts[i]? = some p → IsQuantile data ((i + 1 : ℕ) / b) p) ∧
      (d.method = "outlier" → ∃ o a b, d.outlier = some o ∧ pts = [a, b] ∧ IsQuantile data o a ∧
        IsQuantile data (1 - o) b) ∧
      (d.method = "percentiles" → ∃ ps, d.percentiles = some ps ∧
        List.Forall₂ (IsQuantile data) ps pts) := by
  have hv := hr.valid
  have hd : data ≠ [] := List.ne_nil_of_mem hlo.1
  obtain ⟨q1, q2, q3⟩ := fitPoints_quantiles hv hd
  have hfit : ∀ pts, fitPoints d data = .ok pts → fit d data = ({ d with numeric := some pts }, .ok ()) := by
    intro pts h
    rw [fit, h]
  rcases hv.method with ⟨hm, hbn⟩ | ⟨hm, hbn⟩ | ⟨hm, ho⟩ | ⟨hm, -⟩ | ⟨hm, hp⟩
  · right
    obtain ⟨b, hbs⟩ := Option.ne_none_iff_exists'.1 hbn
    have hb1 := hb b (Or.inl hm) hbs
    lift b to ℕ using by omega
    have hb0 : (0 : K) < b := by
      have : 0 < b := by omega
      exact_mod_cast this
    have hu := fitPoints_uniform hlo hhi hm hbs
    refine ⟨by rw [hm]; decide, _, hfit _ hu, fitPoints_sorted hv hu, ?_, ?_, ?_, ?_, ?_⟩
    · intro p hp
      obtain ⟨n, hn, rfl⟩ := List.mem_map.1 hp
      rw [pyRange, List.mem_range] at hn
      have h1 : ((n + 1 : ℕ) : K) ≤ (b : ℕ) := by
        have : n + 1 ≤ b := by omega
        exact_mod_cast this
      push_cast at h1
      have hle : lo ≤ hi := hlo.2 _ hhi.1
      have h2 : 0 ≤ (hi - lo) / (b : K) := div_nonneg (sub_nonneg.2 hle) hb0.le
      have h3 : (hi - lo) / (b : K) * b = hi - lo := by field_simp
      have hn0 : (0 : K) ≤ n := Nat.cast_nonneg n
      push_cast
      constructor
      · nlinarith
      · nlinarith
    · intro _
      refine ⟨b, hbs, ?_, ?_⟩
      · rw [List.length_map, pyRange_length]; omega
      · intro i p hp
        rw [List.getElem?_map, Option.map_eq_some_iff] at hp
        obtain ⟨n, hn, rfl⟩ := hp
        obtain ⟨hn', hn⟩ := List.getElem?_eq_some_iff.1 hn
        rw [← hn]
        simp only [pyRange, List.getElem_range]
        push_cast
        ring
    all_goals intro hm'; rw [hm] at hm'; exact absurd hm' (by decide)
  · right
    obtain ⟨b, hbs⟩ := Option.ne_none_iff_exists'.1 hbn
    have hb1 := hb b (Or.inr hm) hbs
    lift b to ℕ using by omega
    have hu := q1 b hm hbs (by omega)
    have hran := asked_quantile_range (K := K) (b := (b : ℤ)) (by omega)
    refine ⟨by rw [hm]; decide, _, hfit _ hu, fitPoints_sorted hv hu, ?_, ?_, ?_, ?_, ?_⟩
    · intro p hp
      obtain ⟨q, hq, rfl⟩ := List.mem_map.1 hp
      exact qv_range hd (hran q hq).1 (hran q hq).2 hlo hhi
    · intro hm'; rw [hm] at hm'; exact absurd hm' (by decide)
    · intro _
      refine ⟨b, hbs, ?_, ?_⟩
      · rw [List.length_map, List.length_map, pyRange_length]; omega
      · intro i p hp
        rw [List.getElem?_map, Option.map_eq_some_iff] at hp
        obtain ⟨q, hq, rfl⟩ := hp
        have hq' := hran q (List.mem_of_getElem? hq)
        rw [List.getElem?_map, Option.map_eq_some_iff] at hq
        obtain ⟨n, hn, rfl⟩ := hq
        obtain ⟨hn', hn⟩ := List.getElem?_eq_some_iff.1 hn
        have hni : n = i := by
          rw [← hn]
          simp only [pyRange, List.getElem_range]
        subst hni
        have := qv_isQuantile data hq'.1
        convert this using 1
        push_cast
        ring
    all_goals intro hm'; rw [hm] at hm'; exact absurd hm' (by decide)
  · right
    obtain ⟨o, ho⟩ := Option.ne_none_iff_exists'.1 ho
    have hu := q2 o hm ho
    have hor := hv.outlier o ho
    refine ⟨by rw [hm]; decide, _, hfit _ hu, fitPoints_sorted hv hu, ?_, ?_, ?_, ?_, ?_⟩
    · intro p hp
      simp only [List.map_cons, List.map_nil, List.mem_cons, List.not_mem_nil, or_false] at hp
      rcases hp with rfl | rfl
      · exact qv_range hd hor.1 (by linarith [hor.2]) hlo hhi
      · exact qv_range hd (by linarith [hor.2]) (by linarith [hor.1]) hlo hhi
    · intro hm'; rw [hm] at hm'; exact absurd hm' (by decide)
    · intro hm'; rw [hm] at hm'; exact absurd hm' (by decide)
    · intro _
      exact ⟨o, _, _, ho, rfl, qv_isQuantile data hor.1,
        qv_isQuantile data (by linarith [hor.2])⟩
    · intro hm'; rw [hm] at hm'; exact absurd hm' (by decide)
  · left
    refine ⟨hm, ?_⟩
    simp [fit, fitPoints, hm]
  · right
    obtain ⟨ps, hp⟩ := Option.ne_none_iff_exists'.1 hp
    have hu := q3 ps hm hp
    have hpr := (hv.percentiles ps hp).2
    refine ⟨by rw [hm]; decide, _, hfit _ hu, fitPoints_sorted hv hu, ?_, ?_, ?_, ?_, ?_⟩
    · intro p hp
      obtain ⟨q, hq, rfl⟩ := List.mem_map.1 hp
      exact qv_range hd (hpr q hq).1 (hpr q hq).2 hlo hhi
    · intro hm'; rw [hm] at hm'; exact absurd hm' (by decide)
    · intro hm'; rw [hm] at hm'; exact absurd hm' (by decide)
    · intro hm'; rw [hm] at hm'; exact absurd hm' (by decide)
    · intro _
      refine ⟨ps, hp, ?_⟩
      rw [List.forall₂_map_right_iff, List.forall₂_same]
      intro q hq
      exact qv_isQuantile data (hpr q hq).1

/-- **C31**, no bucket or a negative number of buckets: `quantile` with zero buckets raises `ZeroDivisionError` and changes nothing;
otherwise there are no split points, as with one bucket. -/
theorem fit_few_buckets {d : Disc K} {data : List K} (hd : data ≠ []) {b : ℤ} (hb : b ≤ 0)
    (hm : d.method = "uniform" ∨ d.method = "quantile") (hn : d.numBuckets = some b) :
    fit d data = if d.method = "quantile" ∧ b = 0 then (d, .error .zeroDivision)
      else ({ d with numeric := some [] }, .ok ()) := by
  have hr : pyRange (b - 1) = [] := by
    unfold pyRange
    rw [Int.toNat_of_nonpos (by omega)]
    rfl
  have hx : data.insertionSort (· ≤ ·) ≠ [] := by
    intro h
    exact hd (List.length_eq_zero_iff.1 (by rw [← List.length_insertionSort (· ≤ ·) data, h]; rfl))
  rcases hm with hm | hm
  · have h1 : ¬ (d.method = "quantile" ∧ b = 0) := by rw [hm]; simp
    obtain ⟨mx, hmx⟩ : ∃ mx, (data.insertionSort (· ≤ ·)).max? = some mx := by
      cases h : (data.insertionSort (· ≤ ·)).max? with
      | none => exact absurd (List.max?_eq_none_iff.1 h) hx
      | some m => exact ⟨m, rfl⟩
    obtain ⟨mn, hmn⟩ : ∃ mn, (data.insertionSort (· ≤ ·)).min? = some mn := by
      cases h : (data.insertionSort (· ≤ ·)).min? with
      | none => exact absurd (List.min?_eq_none_iff.1 h) hx
      | some m => exact ⟨m, rfl⟩
    rw [if_neg h1, fit, fitPoints, if_pos hm, hn, hmx, hmn]
    simp only [hr, List.map_nil]
  · by_cases h0 : b = 0
    · rw [if_pos ⟨hm, h0⟩, fit, fitPoints, if_neg (by rw [hm]; decide), if_pos hm, hn]
      simp only [h0, if_true]
    · rw [if_neg (by simp [h0]), fit, fitPoints, if_neg (by rw [hm]; decide), if_pos hm, hn]
      simp only [h0, if_false, hr, List.map_nil]
      rfl

example : fit (⟨"uniform", some 0, none, none, none⟩ : Disc ℚ) [1, 2] = (⟨"uniform", some 0, none, some [], none⟩, .ok ()) ∧
    fit (⟨"quantile", some 0, none, none, none⟩ : Disc ℚ) [1, 2] =
      (⟨"quantile", some 0, none, none, none⟩, .error .zeroDivision) :=
  ⟨fit_few_buckets (b := 0) (by simp) (by simp) (Or.inl rfl) rfl,
    fit_few_buckets (b := 0) (by simp) (by simp) (Or.inr rfl) rfl⟩

/-- **C31**: the outcome of a fit does not depend on the order of the data. -/
theorem fit_perm (d : Disc K) {data data' : List K} (h : data.Perm data') :
    fit d data = fit d data' := by
  have : data.insertionSort (· ≤ ·) = data'.insertionSort (· ≤ ·) :=
    sorted_unique ((List.perm_insertionSort _ _).trans (h.trans (List.perm_insertionSort _ _).symm))
      (List.pairwise_insertionSort _ _) (List.pairwise_insertionSort _ _)
  simp only [fit, fitPoints, this]

/-! ### C32 -/

/-- **C32**: `fit_transform` puts each value of the data in one of the buckets, larger values never
in a smaller bucket; with uniform buckets and at least two different values, the least value is in
the first bucket and the greatest in the last one. -/
theorem fit_transform_correct {d : Disc K} (hr : Reach d) {data : List K} {lo hi : K}
    (hlo : IsMin data lo) (hhi : IsMax data hi) (hm : d.method ≠ "fixed")
    (hb : ∀ b, d.method = "uniform" ∨ d.method = "quantile" → d.numBuckets = some b → 1 ≤ b) :
    ∃ d' out, fitTransform d data = (d', .ok out) ∧ out.length = data.length ∧
      (∀ k ∈ out, (d.method = "uniform" ∨ d.method = "quantile" →
          ∃ b, d.numBuckets = some b ∧ (k : ℤ) < b) ∧
        (d.method = "outlier" → k ≤ 2) ∧
        (d.method = "percentiles" → ∃ ps, d.percentiles = some ps ∧ k ≤ ps.length)) ∧
      (∀ (i j : ℕ) (x y : K) (k l : ℕ), data[i]? = some x → data[j]? = some y → out[i]? = some k →
        out[j]? = some l → x ≤ y → k ≤ l) ∧
      (d.method = "uniform" → lo < hi → ∀ (i k : ℕ), out[i]? = some k →
        (data[i]? = some lo → k = 0) ∧ (data[i]? = some hi → d.numBuckets = some ((k : ℤ) + 1))) := by
  rcases fit_correct hr hlo hhi hb with ⟨h, -⟩ | ⟨-, pts, hf, hs, hran, hu, hq, ho, hp⟩
  · exact absurd h hm
  have hr' : Reach { d with numeric := some pts } := .fit hr hf
  obtain ⟨out, h1, h2, h3⟩ := transform_correct hr' rfl data
  have key : ∀ (i : ℕ) (x : K) (k : ℕ), data[i]? = some x → out[i]? = some k →
      k = pts.countP (· ≤ x) := by
    intro i x k hx hk
    obtain ⟨hi, rfl⟩ := List.getElem?_eq_some_iff.1 hx
    obtain ⟨hi', rfl⟩ := List.getElem?_eq_some_iff.1 hk
    exact ((List.forall₂_iff_get.1 h2).2 i hi hi').2.1
  refine ⟨{ d with numeric := some pts }, out, by rw [fitTransform, hf]; simp only [h1], h2.length_eq.symm, ?_, h3, ?_⟩
  · intro k hk
    have hkl : k ≤ pts.length := by
      obtain ⟨i, hi, rfl⟩ := List.getElem_of_mem hk
      exact ((List.forall₂_iff_get.1 h2).2 i (by rw [h2.length_eq]; exact hi) hi).2.2
    refine ⟨?_, ?_, ?_⟩
    · rintro (h | h)
      · obtain ⟨b, hbs, hl, -⟩ := hu h
        have := hb b (Or.inl h) hbs
        exact ⟨b, hbs, by omega⟩
      · obtain ⟨b, hbs, hl, -⟩ := hq h
        have := hb b (Or.inr h) hbs
        exact ⟨b, hbs, by omega⟩
    · intro h
      obtain ⟨o, a, b, -, rfl, -⟩ := ho h
      exact hkl
    · intro h
      obtain ⟨ps, hps, hl⟩ := hp h
      exact ⟨ps, hps, hl.length_eq ▸ hkl⟩
  · intro h hlt i k hk
    obtain ⟨b, hbs, hl, hpt⟩ := hu h
    have hb1 := hb b (Or.inl h) hbs
    constructor
    · intro hi'
      rw [key i lo k hi' hk, List.countP_eq_zero]
      intro p hp
      obtain ⟨j, hj⟩ := List.mem_iff_getElem?.1 hp
      have hb0 : (0 : K) < b := by
        have : 0 < b := by omega
        exact_mod_cast this
      have : 0 < (hi - lo) * ((j + 1 : ℕ) / (b : K)) := by
        apply mul_pos (sub_pos.2 hlt)
        positivity
      simp only [decide_eq_true_eq, not_le]
      rw [hpt j p hj]
      linarith
    · intro hi'
      rw [key i hi k hi' hk, List.countP_eq_length.2, hl, hbs]
      · congr 1
        omega
      · intro p hp
        simpa using (hran p hp).2

/-! ### The hypotheses can be met -/

example : Reach (⟨"uniform", some 3, none, none, none⟩ : Disc ℚ) :=
  .create (m := "uniform") (b := some 3) (o := none) (n := none) (p := none) (by simp [create])

example : Reach (⟨"percentiles", none, none, none, some [1 / 4, 3 / 4]⟩ : Disc ℚ) :=
  .create (m := "percentiles") (b := none) (o := none) (n := none) (p := some [1 / 4, 3 / 4])
    (by decide +kernel)

example : IsMin [(3 : ℚ), 1, 2] 1 ∧ IsMax [(3 : ℚ), 1, 2] 3 := by
  refine ⟨⟨by simp, ?_⟩, ⟨by simp, ?_⟩⟩ <;> intro x hx <;> simp at hx <;>
    rcases hx with rfl | rfl | rfl <;> norm_num

example : (fitTransform (⟨"uniform", some 3, none, none, none⟩ : Disc ℚ) [0, 1, 2, 3, 6]).2 =
    .ok [0, 0, 1, 1, 2] := by decide +kernel

example : (fitTransform (⟨"quantile", some 2, none, none, none⟩ : Disc ℚ) [5, 1, 2, 10]).2 =
    .ok [1, 0, 0, 1] := by decide +kernel

end

end Verif.Discretiser
