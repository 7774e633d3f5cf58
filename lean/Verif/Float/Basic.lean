import Mathlib.Data.Int.Log
import Mathlib.Algebra.Order.Round
import Mathlib.Data.Rat.Floor
import Mathlib.Algebra.Order.Field.Power
import Mathlib.Tactic.Linarith
import Mathlib.Tactic.NormNum
import Mathlib.Tactic.Ring
import Mathlib.Tactic.FieldSimp
import Mathlib.Tactic.Positivity
import Mathlib.Tactic.Push

/-!
# Double precision

Rounding to the nearest number with 53 significant bits, ties to even: the result of one arithmetic operation on Python floats, within the
range of normal numbers (no overflow or underflow).
-/

namespace Verif.Float

/-- Rounding to the nearest integer, ties to even. -/
def roundEven (x : ℚ) : ℤ :=
  if Int.fract x < 1 / 2 then ⌊x⌋ else if 1 / 2 < Int.fract x then ⌊x⌋ + 1 else if ⌊x⌋ % 2 = 0 then ⌊x⌋ else ⌊x⌋ + 1

/-- The distance of neighbouring floats near `q`. -/
def ulp (q : ℚ) : ℚ := 2 ^ (Int.log 2 |q| - 52)

/-- Rounding to double precision. -/
def rnd (q : ℚ) : ℚ := if q = 0 then 0 else roundEven (q / ulp q) * ulp q

theorem roundEven_near (x : ℚ) : |(roundEven x : ℚ) - x| ≤ 1 / 2 := by
  have h1 := Int.fract_nonneg x
  have h2 := Int.fract_lt_one x
  have h3 : (⌊x⌋ : ℚ) = x - Int.fract x := by rw [← Int.self_sub_floor]; ring
  unfold roundEven
  split_ifs with a b c <;> push_cast <;> rw [h3, abs_le] <;> constructor <;> linarith

theorem roundEven_int (n : ℤ) : roundEven (n : ℚ) = n := by
  unfold roundEven
  rw [Int.fract_intCast, if_pos (by norm_num), Int.floor_intCast]

theorem ulp_pos (q : ℚ) : 0 < ulp q := by unfold ulp; positivity

/-- The relative error of one operation. -/
theorem rnd_near (q : ℚ) : |rnd q - q| ≤ |q| / 2 ^ 53 := by
  unfold rnd
  split_ifs with h
  · rw [h]; simp
  · have hu := ulp_pos q
    have hq : 0 < |q| := abs_pos.2 h
    have e : (roundEven (q / ulp q) : ℚ) * ulp q - q = ((roundEven (q / ulp q) : ℚ) - q / ulp q) * ulp q := by
      rw [sub_mul, div_mul_cancel₀ _ hu.ne']
    rw [e, abs_mul, abs_of_pos hu]
    have h1 := roundEven_near (q / ulp q)
    have h2 : ulp q ≤ |q| / 2 ^ 52 := by
      unfold ulp
      rw [zpow_sub₀ (by norm_num), le_div_iff₀ (by positivity)]
      have := Int.zpow_log_le_self (b := 2) (r := |q|) (by norm_num) hq
      have e2 : ((2 : ℚ) ^ (52 : ℤ)) = 2 ^ 52 := by norm_num
      rw [e2, div_mul_cancel₀ _ (by positivity)]
      exact_mod_cast this
    calc |(roundEven (q / ulp q) : ℚ) - q / ulp q| * ulp q ≤ 1 / 2 * (|q| / 2 ^ 52) :=
          mul_le_mul h1 h2 hu.le (by norm_num)
      _ = |q| / 2 ^ 53 := by ring

theorem rnd_zero : rnd 0 = 0 := by unfold rnd; rw [if_pos rfl]

/-- Numbers with few bits are exact. -/
theorem rnd_exact {m j : ℤ} (hm : |m| < 2 ^ 53) : rnd ((m : ℚ) * 2 ^ j) = (m : ℚ) * 2 ^ j := by
  unfold rnd
  split_ifs with h
  · exact h.symm
  · set q : ℚ := (m : ℚ) * 2 ^ j with hq
    have hu := ulp_pos q
    have hq0 : 0 < |q| := abs_pos.2 h
    have hlog := Int.zpow_log_le_self (b := 2) (r := |q|) (by norm_num) hq0
    have hj : Int.log 2 |q| - 52 ≤ j := by
      by_contra hlt
      push Not at hlt
      have h1 : (2 : ℚ) ^ (j + 53) ≤ |q| := by
        exact le_trans (zpow_le_zpow_right₀ (by norm_num) (show j + 53 ≤ Int.log 2 |q| by omega)) (by exact_mod_cast hlog)
      rw [hq, abs_mul, abs_of_pos (show (0 : ℚ) < 2 ^ j by positivity), zpow_add₀ (by norm_num), mul_comm] at h1
      have h2 : (2 : ℚ) ^ (53 : ℤ) ≤ |(m : ℚ)| := le_of_mul_le_mul_right h1 (by positivity)
      have h3 : |(m : ℚ)| < 2 ^ (53 : ℤ) := by
        have : ((|m| : ℤ) : ℚ) < ((2 ^ 53 : ℤ) : ℚ) := by exact_mod_cast hm
        rw [Int.cast_abs] at this
        refine lt_of_lt_of_eq this ?_
        norm_num
      exact absurd h2 (not_le.2 h3)
    obtain ⟨k, hk⟩ := Int.eq_ofNat_of_zero_le (sub_nonneg.2 hj)
    have hdiv : q / ulp q = ((m * 2 ^ k : ℤ) : ℚ) := by
      unfold ulp
      rw [hq, mul_div_assoc, ← zpow_sub₀ (by norm_num), ← hq, hk]
      push_cast
      rw [zpow_natCast]
    rw [hdiv, roundEven_int, ← hdiv, div_mul_cancel₀ _ hu.ne']

theorem rnd_int {n : ℤ} (h : |n| < 2 ^ 53) : rnd n = n := by
  have := rnd_exact (m := n) (j := 0) h
  simpa using this

theorem roundEven_le {x : ℚ} {n : ℤ} (h : x ≤ n) : roundEven x ≤ n := by
  have h1 := roundEven_near x
  rw [abs_le] at h1
  have h2 : (roundEven x : ℚ) < n + 1 := by linarith [h1.2]
  have h3 : roundEven x < n + 1 := by exact_mod_cast h2
  omega

theorem le_roundEven {x : ℚ} {n : ℤ} (h : (n : ℚ) ≤ x) : n ≤ roundEven x := by
  have h1 := roundEven_near x
  rw [abs_le] at h1
  have h2 : (n : ℚ) - 1 < roundEven x := by linarith [h1.1]
  have h3 : n - 1 < roundEven x := by exact_mod_cast h2
  omega

/-- Rounding a rounded number changes nothing. -/
theorem rnd_rnd (q : ℚ) : rnd (rnd q) = rnd q := by
  by_cases h : q = 0
  · rw [h, rnd_zero, rnd_zero]
  · have hu := ulp_pos q
    have hlt : |q / ulp q| ≤ ((2 ^ 53 : ℤ) : ℚ) := by
      rw [abs_div, abs_of_pos hu, div_le_iff₀ hu]
      have := Int.lt_zpow_succ_log_self (b := 2) (by norm_num) |q|
      unfold ulp
      refine le_of_lt (lt_of_lt_of_eq (show |q| < (2 : ℚ) ^ (Int.log 2 |q| + 1) by exact_mod_cast this) ?_)
      rw [show ((2 ^ 53 : ℤ) : ℚ) = 2 ^ (53 : ℤ) by norm_num, ← zpow_add₀ (by norm_num)]
      congr 1
      ring
    have hr : rnd q = (roundEven (q / ulp q) : ℚ) * 2 ^ (Int.log 2 |q| - 52) := by
      unfold rnd
      rw [if_neg h]
      rfl
    set m := roundEven (q / ulp q) with hm
    rw [abs_le] at hlt
    have hle : m ≤ 2 ^ 53 := roundEven_le hlt.2
    have hge : -(2 ^ 53) ≤ m := le_roundEven (n := -(2 ^ 53)) (by push_cast; push_cast at hlt; linarith [hlt.1])
    rw [hr]
    by_cases h1 : m = 2 ^ 53
    · have e : (m : ℚ) * 2 ^ (Int.log 2 |q| - 52) = ((2 ^ 52 : ℤ) : ℚ) * 2 ^ (Int.log 2 |q| - 52 + 1) := by
        rw [h1, zpow_add₀ (by norm_num)]; push_cast; ring
      rw [e]
      exact rnd_exact (by norm_num)
    · by_cases h2 : m = -(2 ^ 53)
      · have e : (m : ℚ) * 2 ^ (Int.log 2 |q| - 52) = ((-(2 ^ 52) : ℤ) : ℚ) * 2 ^ (Int.log 2 |q| - 52 + 1) := by
          rw [h2, zpow_add₀ (by norm_num)]; push_cast; ring
        rw [e]
        exact rnd_exact (by norm_num)
      · refine rnd_exact (abs_lt.2 ⟨?_, ?_⟩) <;> omega

end Verif.Float
