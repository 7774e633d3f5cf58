import Verif.Float.Sum

/-!
# Rounding is odd and monotone
-/

namespace Verif.Float

theorem roundEven_neg (x : ℚ) : roundEven (-x) = -roundEven x := by
  by_cases h : Int.fract x = 0
  · have e : x = (⌊x⌋ : ℚ) := by
      have := Int.self_sub_floor x
      rw [h] at this; linarith
    rw [e, ← Int.cast_neg, roundEven_int, roundEven_int]
  · have hf : Int.fract (-x) = 1 - Int.fract x := Int.fract_neg h
    have hfl : ⌊-x⌋ = -⌊x⌋ - 1 := by
      have h1 := Int.self_sub_floor (-x)
      have h2 := Int.self_sub_floor x
      have : (⌊-x⌋ : ℚ) = ((-⌊x⌋ - 1 : ℤ) : ℚ) := by push_cast; linarith
      exact_mod_cast this
    unfold roundEven
    rw [hf, hfl]
    split_ifs <;> first | omega | (exfalso; linarith)

theorem rnd_neg (q : ℚ) : rnd (-q) = -rnd q := by
  unfold rnd
  have hu : ulp (-q) = ulp q := by unfold ulp; rw [abs_neg]
  by_cases h : q = 0
  · rw [if_pos (by rw [h, neg_zero]), if_pos h, neg_zero]
  · rw [if_neg (neg_ne_zero.2 h), if_neg h, hu, neg_div, roundEven_neg]
    push_cast
    ring

/-- Rounding is monotone. -/
theorem rnd_le_rnd {x y : ℚ} (h : x ≤ y) : rnd x ≤ rnd y := by
  rcases le_total 0 x with hx | hx
  · exact rnd_mono hx h
  · rcases le_total 0 y with hy | hy
    · have h1 : 0 ≤ rnd (-x) := rnd_nonneg (by linarith)
      rw [rnd_neg] at h1
      have h2 : 0 ≤ rnd y := rnd_nonneg hy
      linarith
    · have h1 : rnd (-y) ≤ rnd (-x) := rnd_mono (by linarith) (by linarith)
      rw [rnd_neg, rnd_neg] at h1
      linarith

end Verif.Float
