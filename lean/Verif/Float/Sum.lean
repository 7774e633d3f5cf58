import Verif.Float.Basic
import Mathlib.Data.List.Basic
import Mathlib.Algebra.BigOperators.Group.List.Basic

/-!
# Sums in double precision
-/

namespace Verif.Float

/-- `q` is a Python float (without overflow and underflow). -/
def IsDouble (q : ℚ) : Prop := rnd q = q

theorem isDouble_rnd (q : ℚ) : IsDouble (rnd q) := rnd_rnd q

theorem isDouble_zero : IsDouble 0 := rnd_zero

theorem isDouble_one : IsDouble 1 := by
  unfold IsDouble
  simpa using rnd_int (n := 1) (by norm_num)

/-- `sum(values)` in Python: the values are added from left to right, starting with `0`, and every addition rounds.  (Up to Python 3.11;
the package requires 3.6 to 3.8.) -/
def floatSum (l : List ℚ) : ℚ := l.foldl (fun a x => rnd (a + x)) 0

theorem roundEven_mono {x y : ℚ} (h : x ≤ y) : roundEven x ≤ roundEven y := by
  have hf := Int.floor_le_floor h
  rcases hf.lt_or_eq with hlt | heq
  · have h1 : roundEven x ≤ ⌊x⌋ + 1 := roundEven_le (by push_cast; exact (Int.lt_floor_add_one x).le)
    have h2 : ⌊y⌋ ≤ roundEven y := le_roundEven (Int.floor_le y)
    omega
  · have hfr : Int.fract x ≤ Int.fract y := by
      rw [← Int.self_sub_floor, ← Int.self_sub_floor, heq]; linarith
    unfold roundEven
    rw [heq]
    split_ifs <;> first | omega | (exfalso; linarith)

theorem rnd_of_pos {q : ℚ} (h : 0 < q) : rnd q = roundEven (q / ulp q) * ulp q := by
  unfold rnd
  rw [if_neg h.ne']

/-- A positive number and its rounding lie in the same closed interval between powers of two. -/
theorem rnd_binade {q : ℚ} (h : 0 < q) : (2 : ℚ) ^ Int.log 2 q ≤ rnd q ∧ rnd q ≤ 2 ^ (Int.log 2 q + 1) := by
  have hu := ulp_pos q
  have habs : |q| = q := abs_of_pos h
  have e1 : (2 : ℚ) ^ Int.log 2 q = ((2 ^ 52 : ℤ) : ℚ) * ulp q := by
    unfold ulp
    rw [habs, show ((2 ^ 52 : ℤ) : ℚ) = 2 ^ (52 : ℤ) by norm_num, ← zpow_add₀ (by norm_num)]
    congr 1; ring
  have e2 : (2 : ℚ) ^ (Int.log 2 q + 1) = ((2 ^ 53 : ℤ) : ℚ) * ulp q := by
    unfold ulp
    rw [habs, show ((2 ^ 53 : ℤ) : ℚ) = 2 ^ (53 : ℤ) by norm_num, ← zpow_add₀ (by norm_num)]
    congr 1; ring
  have h1 := Int.zpow_log_le_self (b := 2) (r := q) (by norm_num) h
  have h2 := Int.lt_zpow_succ_log_self (b := 2) (by norm_num) q
  rw [rnd_of_pos h]
  constructor
  · rw [e1]
    apply mul_le_mul_of_nonneg_right _ hu.le
    have h3 : ((2 ^ 52 : ℤ) : ℚ) ≤ q / ulp q := by rw [le_div_iff₀ hu, ← e1]; exact_mod_cast h1
    exact Int.cast_le.2 (le_roundEven h3)
  · rw [e2]
    apply mul_le_mul_of_nonneg_right _ hu.le
    have h3 : q / ulp q ≤ ((2 ^ 53 : ℤ) : ℚ) := by rw [div_le_iff₀ hu, ← e2]; exact_mod_cast h2.le
    exact Int.cast_le.2 (roundEven_le h3)

theorem rnd_nonneg {q : ℚ} (h : 0 ≤ q) : 0 ≤ rnd q := by
  rcases h.eq_or_lt with rfl | h
  · rw [rnd_zero]
  · exact le_trans (by positivity) (rnd_binade h).1

/-- Rounding is monotone. -/
theorem rnd_mono {x y : ℚ} (hx : 0 ≤ x) (h : x ≤ y) : rnd x ≤ rnd y := by
  rcases hx.eq_or_lt with rfl | hx
  · rw [rnd_zero]; exact rnd_nonneg h
  · have hy := lt_of_lt_of_le hx h
    have hlog : Int.log 2 x ≤ Int.log 2 y := Int.log_mono_right hx h
    rcases hlog.lt_or_eq with hlt | heq
    · refine (rnd_binade hx).2.trans (le_trans ?_ (rnd_binade hy).1)
      exact zpow_le_zpow_right₀ (by norm_num) (by omega)
    · have hu : ulp x = ulp y := by unfold ulp; rw [abs_of_pos hx, abs_of_pos hy, heq]
      rw [rnd_of_pos hx, rnd_of_pos hy, hu]
      apply mul_le_mul_of_nonneg_right _ (ulp_pos y).le
      exact_mod_cast roundEven_mono (div_le_div_of_nonneg_right h (ulp_pos y).le)

/-- The error relative to the result. -/
theorem rnd_near' {q : ℚ} (h : 0 ≤ q) : |rnd q - q| ≤ rnd q / 2 ^ 53 := by
  rcases h.eq_or_lt with rfl | h
  · rw [rnd_zero]; simp
  · have hu := ulp_pos q
    have e : rnd q - q = ((roundEven (q / ulp q) : ℚ) - q / ulp q) * ulp q := by
      rw [rnd_of_pos h, sub_mul, div_mul_cancel₀ _ hu.ne']
    rw [e, abs_mul, abs_of_pos hu]
    have h1 := roundEven_near (q / ulp q)
    have h2 : ulp q = 2 ^ Int.log 2 q / 2 ^ 52 := by
      unfold ulp
      rw [abs_of_pos h, zpow_sub₀ (by norm_num)]
      norm_num
    have h3 := (rnd_binade h).1
    calc |(roundEven (q / ulp q) : ℚ) - q / ulp q| * ulp q ≤ 1 / 2 * ulp q := mul_le_mul_of_nonneg_right h1 hu.le
      _ = 2 ^ Int.log 2 q / 2 ^ 53 := by rw [h2]; ring
      _ ≤ rnd q / 2 ^ 53 := by gcongr

/-- Which sums are reported as exactly one. -/
theorem rnd_eq_one_iff {q : ℚ} : rnd q = 1 ↔ 1 - 1 / 2 ^ 54 ≤ q ∧ q ≤ 1 + 1 / 2 ^ 53 := by
  constructor
  · intro h
    have hpos : 0 < q := by
      by_contra hq
      push Not at hq
      have := rnd_near q
      rw [h, abs_of_nonpos hq, abs_le] at this
      have : -q / 2 ^ 53 ≤ -q := div_le_self (by linarith) (by norm_num)
      linarith
    have h1 := rnd_near' hpos.le
    rw [h, abs_le] at h1
    refine ⟨?_, by linarith [h1.1]⟩
    by_contra hlt
    push Not at hlt
    -- below the midpoint of `1 - 2^-53` and `1`
    have hlog : Int.log 2 q = -1 := by
      have ha : (2 : ℚ) ^ (-1 : ℤ) ≤ q := by
        have : q ≥ 1 - 1 / 2 ^ 53 := by linarith [h1.2]
        norm_num at this ⊢; linarith
      have hb : q < (2 : ℚ) ^ (-1 + 1 : ℤ) := by norm_num at hlt ⊢; linarith
      have h3 : (-1 : ℤ) ≤ Int.log 2 q := (Int.zpow_le_iff_le_log (b := 2) (by norm_num) hpos).1 (by exact_mod_cast ha)
      have h4 : Int.log 2 q < -1 + 1 := (Int.lt_zpow_iff_log_lt (b := 2) (by norm_num) hpos).1 (by exact_mod_cast hb)
      omega
    have hu : ulp q = 1 / 2 ^ 53 := by unfold ulp; rw [abs_of_pos hpos, hlog]; norm_num
    rw [rnd_of_pos hpos, hu] at h
    have h5 : (roundEven (q / (1 / 2 ^ 53)) : ℚ) = 2 ^ 53 := by field_simp at h ⊢; linarith
    have h6 := roundEven_near (q / (1 / 2 ^ 53))
    rw [h5, abs_le] at h6
    have : q / (1 / 2 ^ 53) = q * 2 ^ 53 := by field_simp
    rw [this] at h6
    have h7 : (2 : ℚ) ^ 53 - q * 2 ^ 53 ≤ 1 / 2 := h6.2
    have : q * 2 ^ 53 < (1 - 1 / 2 ^ 54) * 2 ^ 53 := mul_lt_mul_of_pos_right hlt (by norm_num)
    norm_num at this h7
    linarith
  · rintro ⟨h1, h2⟩
    have hpos : 0 < q := by norm_num at h1; linarith
    by_cases hq : q < 1
    · have hlog : Int.log 2 q = -1 := by
        have ha : (2 : ℚ) ^ (-1 : ℤ) ≤ q := by norm_num at h1 ⊢; linarith
        have hb : q < (2 : ℚ) ^ (-1 + 1 : ℤ) := by norm_num; linarith
        have h3 : (-1 : ℤ) ≤ Int.log 2 q := (Int.zpow_le_iff_le_log (b := 2) (by norm_num) hpos).1 (by exact_mod_cast ha)
        have h4 : Int.log 2 q < -1 + 1 := (Int.lt_zpow_iff_log_lt (b := 2) (by norm_num) hpos).1 (by exact_mod_cast hb)
        omega
      have hu : ulp q = 1 / 2 ^ 53 := by unfold ulp; rw [abs_of_pos hpos, hlog]; norm_num
      rw [rnd_of_pos hpos, hu]
      have e : q / (1 / 2 ^ 53) = q * 2 ^ 53 := by field_simp
      have hr : roundEven (q / (1 / 2 ^ 53)) = 2 ^ 53 := by
        rw [e]
        have hx1 : (2 : ℚ) ^ 53 - 1 / 2 ≤ q * 2 ^ 53 := by norm_num at h1 ⊢; linarith
        have hx2 : q * 2 ^ 53 < 2 ^ 53 := by norm_num; linarith
        have hfl : ⌊q * 2 ^ 53⌋ = 2 ^ 53 - 1 := by
          rw [Int.floor_eq_iff]
          constructor
          · push_cast; linarith
          · push_cast; linarith
        have hfr : 1 / 2 ≤ Int.fract (q * 2 ^ 53) := by
          rw [← Int.self_sub_floor, hfl]; push_cast; linarith
        unfold roundEven
        rw [if_neg (not_lt.2 hfr), hfl]
        split_ifs with h3 h4
        · norm_num
        · norm_num at h4
        · norm_num
      rw [hr]
      norm_num
    · push Not at hq
      have hlog : Int.log 2 q = 0 := by
        have hb : q < (2 : ℚ) ^ (0 + 1 : ℤ) := by norm_num at h2 ⊢; linarith
        have h3 : (0 : ℤ) ≤ Int.log 2 q := (Int.zpow_le_iff_le_log (b := 2) (by norm_num) hpos).1 (by simpa using hq)
        have h4 : Int.log 2 q < 0 + 1 := (Int.lt_zpow_iff_log_lt (b := 2) (by norm_num) hpos).1 (by exact_mod_cast hb)
        omega
      have hu : ulp q = 1 / 2 ^ 52 := by unfold ulp; rw [abs_of_pos hpos, hlog]; norm_num
      rw [rnd_of_pos hpos, hu]
      have e : q / (1 / 2 ^ 52) = q * 2 ^ 52 := by field_simp
      have hr : roundEven (q / (1 / 2 ^ 52)) = 2 ^ 52 := by
        rw [e]
        have hx1 : (2 : ℚ) ^ 52 ≤ q * 2 ^ 52 := by norm_num; linarith
        have hx2 : q * 2 ^ 52 ≤ 2 ^ 52 + 1 / 2 := by norm_num at h2 ⊢; linarith
        have hfl : ⌊q * 2 ^ 52⌋ = 2 ^ 52 := by
          rw [Int.floor_eq_iff]
          constructor
          · push_cast; linarith
          · push_cast; linarith
        have hfr : Int.fract (q * 2 ^ 52) ≤ 1 / 2 := by
          rw [← Int.self_sub_floor, hfl]; push_cast; linarith
        unfold roundEven
        rw [hfl]
        split_ifs with h3 h4 h5
        · rfl
        · linarith
        · rfl
        · norm_num at h5
      rw [hr]
      norm_num

/-- Subtraction of a double between one half and one from one is exact. -/
theorem isDouble_one_sub {p : ℚ} (hp : IsDouble p) (h1 : 1 / 2 ≤ p) (h2 : p ≤ 1) : IsDouble (1 - p) := by
  rcases h2.eq_or_lt with rfl | hlt
  · simpa using isDouble_zero
  have hpos : 0 < p := by linarith
  have hlog : Int.log 2 p = -1 := by
    have ha : (2 : ℚ) ^ (-1 : ℤ) ≤ p := by norm_num at h1 ⊢; linarith
    have hb : p < (2 : ℚ) ^ (-1 + 1 : ℤ) := by norm_num; linarith
    have h3 : (-1 : ℤ) ≤ Int.log 2 p := (Int.zpow_le_iff_le_log (b := 2) (by norm_num) hpos).1 (by exact_mod_cast ha)
    have h4 : Int.log 2 p < -1 + 1 := (Int.lt_zpow_iff_log_lt (b := 2) (by norm_num) hpos).1 (by exact_mod_cast hb)
    omega
  have hu : ulp p = 1 / 2 ^ 53 := by unfold ulp; rw [abs_of_pos hpos, hlog]; norm_num
  have hr : p = (roundEven (p / ulp p) : ℚ) * (1 / 2 ^ 53) := by
    have : rnd p = p := hp
    rw [rnd_of_pos hpos] at this
    rw [hu] at this ⊢
    exact this.symm
  set m := roundEven (p / ulp p)
  have e : 1 - p = ((2 ^ 53 - m : ℤ) : ℚ) * 2 ^ (-53 : ℤ) := by
    rw [hr]; push_cast; norm_num; ring
  rw [hr] at h1 h2
  have hm1 : (0 : ℚ) < m := by linarith
  have hm1 : 0 < m := by exact_mod_cast hm1
  have hm2 : (m : ℚ) ≤ 2 ^ 53 := by
    have : (m : ℚ) * (1 / 2 ^ 53) * 2 ^ 53 ≤ 1 * 2 ^ 53 := mul_le_mul_of_nonneg_right h2 (by norm_num)
    have e : (m : ℚ) * (1 / 2 ^ 53) * 2 ^ 53 = m := by field_simp
    linarith
  have hm2 : m ≤ 2 ^ 53 := by exact_mod_cast hm2
  unfold IsDouble
  rw [e]
  exact rnd_exact (abs_lt.2 ⟨by omega, by omega⟩)

/-- A probability and its complement, as computed in double precision, add up to exactly one. -/
theorem rnd_complement {p : ℚ} (hp : IsDouble p) (h0 : 0 ≤ p) (h1 : p ≤ 1) : rnd (p + rnd (1 - p)) = 1 := by
  by_cases h : 1 / 2 ≤ p
  · have : rnd (1 - p) = 1 - p := isDouble_one_sub hp h h1
    rw [this]
    have e : p + (1 - p) = 1 := by ring
    rw [e]
    exact isDouble_one
  · push Not at h
    have hq : 0 < 1 - p := by linarith
    have hle : rnd (1 - p) ≤ 1 := by
      have := rnd_mono hq.le (show 1 - p ≤ 1 by linarith)
      rwa [show rnd 1 = 1 from isDouble_one] at this
    rcases h0.eq_or_lt with rfl | hp0
    · have : rnd (0 + rnd (1 - 0)) = 1 := by
        rw [zero_add, rnd_rnd, sub_zero]; exact isDouble_one
      exact this
    have hlog : Int.log 2 (1 - p) = -1 := by
      have ha : (2 : ℚ) ^ (-1 : ℤ) ≤ 1 - p := by norm_num at h ⊢; linarith
      have hb : 1 - p < (2 : ℚ) ^ (-1 + 1 : ℤ) := by norm_num; linarith
      have h3 : (-1 : ℤ) ≤ Int.log 2 (1 - p) := (Int.zpow_le_iff_le_log (b := 2) (by norm_num) hq).1 (by exact_mod_cast ha)
      have h4 : Int.log 2 (1 - p) < -1 + 1 := (Int.lt_zpow_iff_log_lt (b := 2) (by norm_num) hq).1 (by exact_mod_cast hb)
      omega
    have hu : ulp (1 - p) = 1 / 2 ^ 53 := by unfold ulp; rw [abs_of_pos hq, hlog]; norm_num
    have e : rnd (1 - p) - (1 - p) = ((roundEven ((1 - p) / ulp (1 - p)) : ℚ) - (1 - p) / ulp (1 - p)) * ulp (1 - p) := by
      rw [rnd_of_pos hq, sub_mul, div_mul_cancel₀ _ (ulp_pos _).ne']
    have hn := roundEven_near ((1 - p) / ulp (1 - p))
    rw [hu] at e hn
    rw [rnd_eq_one_iff]
    rw [abs_le] at hn
    have h54 : (1 : ℚ) / 2 ^ 54 = 1 / 2 * (1 / 2 ^ 53) := by norm_num
    constructor
    · nlinarith [hn.1, show (0 : ℚ) < 1 / 2 ^ 53 by norm_num]
    · nlinarith [hn.2, show (0 : ℚ) < 1 / 2 ^ 53 by norm_num]

section sums

theorem foldl_isDouble (l : List ℚ) {a : ℚ} (ha : IsDouble a) : IsDouble (l.foldl (fun a x => rnd (a + x)) a) := by
  induction l generalizing a with
  | nil => exact ha
  | cons x l ih => exact ih (isDouble_rnd _)

theorem le_foldl {l : List ℚ} (h : ∀ x ∈ l, 0 ≤ x) {a : ℚ} (ha : IsDouble a) (h0 : 0 ≤ a) :
    a ≤ l.foldl (fun a x => rnd (a + x)) a := by
  induction l generalizing a with
  | nil => exact le_rfl
  | cons x l ih =>
    have hx := h x List.mem_cons_self
    have h1 : a ≤ rnd (a + x) := by
      have := rnd_mono h0 (show a ≤ a + x by linarith)
      rwa [show rnd a = a from ha] at this
    exact h1.trans (ih (fun y hy => h y (List.mem_cons_of_mem _ hy)) (isDouble_rnd _) (h0.trans h1))

theorem foldl_error {l : List ℚ} (h : ∀ x ∈ l, 0 ≤ x) {a : ℚ} (ha : IsDouble a) (h0 : 0 ≤ a) :
    |l.foldl (fun a x => rnd (a + x)) a - (a + l.sum)| ≤
      l.length * (l.foldl (fun a x => rnd (a + x)) a / 2 ^ 53) := by
  induction l generalizing a with
  | nil => simp
  | cons x l ih =>
    have hx := h x List.mem_cons_self
    have hl : ∀ y ∈ l, 0 ≤ y := fun y hy => h y (List.mem_cons_of_mem _ hy)
    have h1 := ih hl (isDouble_rnd (a + x)) (rnd_nonneg (by linarith))
    have h2 := rnd_near' (show 0 ≤ a + x by linarith)
    have h3 := le_foldl hl (isDouble_rnd (a + x)) (rnd_nonneg (by linarith))
    simp only [List.foldl_cons, List.sum_cons, List.length_cons]
    set r := l.foldl (fun a x => rnd (a + x)) (rnd (a + x))
    have e : r - (a + (x + l.sum)) = (r - (rnd (a + x) + l.sum)) + (rnd (a + x) - (a + x)) := by ring
    rw [e]
    refine (abs_add_le _ _).trans ?_
    have h4 : rnd (a + x) / 2 ^ 53 ≤ r / 2 ^ 53 := by gcongr
    push_cast
    linarith

/-- The error of a sum of nonnegative floats. -/
theorem floatSum_error {l : List ℚ} (h : ∀ x ∈ l, 0 ≤ x) (hd : ∀ x ∈ l, IsDouble x) :
    |floatSum l - l.sum| ≤ (l.length - 1 : ℕ) * (floatSum l / 2 ^ 53) := by
  unfold floatSum
  cases l with
  | nil => simp
  | cons x l =>
    have hx : IsDouble x := hd x List.mem_cons_self
    have h1 := foldl_error (fun y hy => h y (List.mem_cons_of_mem _ hy)) hx (h x List.mem_cons_self)
    simp only [List.foldl_cons, zero_add, List.sum_cons, List.length_cons, Nat.add_sub_cancel]
    rw [show rnd x = x from hx]
    exact h1

/-- A sum of nonnegative floats is at least each of them. -/
theorem le_floatSum {l : List ℚ} (h : ∀ x ∈ l, 0 ≤ x) (hd : ∀ x ∈ l, IsDouble x) {x : ℚ} (hx : x ∈ l) : x ≤ floatSum l := by
  obtain ⟨s, t, rfl⟩ := List.append_of_mem hx
  unfold floatSum
  rw [List.foldl_append, List.foldl_cons]
  have h0 := le_foldl (l := s) (fun y hy => h y (by simp [hy])) isDouble_zero le_rfl
  have hx0 := h x hx
  set a := s.foldl (fun a x => rnd (a + x)) 0
  have h1 : x ≤ rnd (a + x) := by
    have := rnd_mono hx0 (show x ≤ a + x by linarith)
    rwa [show rnd x = x from hd x hx] at this
  exact h1.trans (le_foldl (fun y hy => h y (by simp [hy])) (isDouble_rnd _) (hx0.trans h1))

end sums

end Verif.Float
