import Verif.BBN.Props

/-!
# Join-tree inference with rounded arithmetic

The program of `Verif.BBN.Model` uses only the operations of its number type.  Here it is run on numbers whose operations round
their exact result, as floating point operations do, and compared with the exact run.
-/

namespace Verif.BBN

open Function

/-- Rounding with relative error at most `u` (the unit roundoff): the standard model of floating point arithmetic without overflow
and underflow. -/
structure Rounds (u : ℚ) (rd : ℚ → ℚ) : Prop where
  nonneg : 0 ≤ u
  lt_one : u < 1
  near : ∀ q, |rd q - q| ≤ u * |q|

/-- Numbers with rounded arithmetic: the exact result of each operation is rounded by `rd`. -/
@[ext] structure Fl (rd : ℚ → ℚ) where
  val : ℚ
  deriving DecidableEq

namespace Fl
variable {rd : ℚ → ℚ}

instance : Zero (Fl rd) := ⟨⟨0⟩⟩
instance : One (Fl rd) := ⟨⟨1⟩⟩
instance : Add (Fl rd) := ⟨fun a b => ⟨rd (a.val + b.val)⟩⟩
instance : Mul (Fl rd) := ⟨fun a b => ⟨rd (a.val * b.val)⟩⟩
instance : Div (Fl rd) := ⟨fun a b => ⟨rd (a.val / b.val)⟩⟩
instance : LT (Fl rd) := ⟨fun a b => a.val < b.val⟩
instance : DecidableLT (Fl rd) := fun a b => inferInstanceAs (Decidable (a.val < b.val))

theorem lt_val (a b : Fl rd) : a < b ↔ a.val < b.val := Iff.rfl
theorem zero_val : (0 : Fl rd).val = 0 := rfl
theorem one_val : (1 : Fl rd).val = 1 := rfl
theorem add_val (a b : Fl rd) : (a + b).val = rd (a.val + b.val) := rfl
theorem mul_val (a b : Fl rd) : (a * b).val = rd (a.val * b.val) := rfl
theorem div_val (a b : Fl rd) : (a / b).val = rd (a.val / b.val) := rfl

end Fl

/-- `x` is `y` up to `n` roundings with unit roundoff `u`, in either direction. -/
structure Close (u : ℚ) (n : ℕ) (x y : ℚ) : Prop where
  nonneg : 0 ≤ y
  lo : (1 - u) ^ n * y ≤ x
  hi : (1 - u) ^ n * x ≤ y

section
variable {u : ℚ} {rd : ℚ → ℚ} {n m : ℕ} {x y a b : ℚ}

theorem Rounds.pos (h : Rounds u rd) (n : ℕ) : 0 < (1 - u) ^ n := pow_pos (sub_pos.2 h.lt_one) _

theorem Rounds.le_one (h : Rounds u rd) (n : ℕ) : (1 - u) ^ n ≤ 1 :=
  pow_le_one₀ (sub_pos.2 h.lt_one).le (by linarith [h.nonneg])

theorem Close.x_nonneg (h : Rounds u rd) (c : Close u n x y) : 0 ≤ x :=
  le_trans (mul_nonneg (h.pos n).le c.nonneg) c.lo

theorem Close.refl (h : 0 ≤ y) : Close u 0 y y := ⟨h, by simp, by simp⟩

theorem Close.mono (h : Rounds u rd) (c : Close u n x y) (hnm : n ≤ m) : Close u m x y := by
  have h1 : (1 - u) ^ m ≤ (1 - u) ^ n :=
    pow_le_pow_of_le_one (sub_pos.2 h.lt_one).le (by linarith [h.nonneg]) hnm
  exact ⟨c.nonneg, le_trans (mul_le_mul_of_nonneg_right h1 c.nonneg) c.lo,
    le_trans (mul_le_mul_of_nonneg_right h1 (c.x_nonneg h)) c.hi⟩

theorem Close.eq_zero_iff (h : Rounds u rd) (c : Close u n x y) : x = 0 ↔ y = 0 := by
  have hp := h.pos n
  constructor
  · intro hx
    have := c.lo
    rw [hx] at this
    exact le_antisymm (nonpos_of_mul_nonpos_right this hp) c.nonneg
  · intro hy
    have := c.hi
    rw [hy] at this
    exact le_antisymm (nonpos_of_mul_nonpos_right this hp) (c.x_nonneg h)

theorem Close.round (h : Rounds u rd) (c : Close u n x y) : Close u (n + 1) (rd x) y := by
  have hx := c.x_nonneg h
  have hn := h.near x
  rw [abs_of_nonneg hx, abs_le] at hn
  have hp := h.pos n
  have h1 := h.lt_one
  have h0 := h.nonneg
  refine ⟨c.nonneg, ?_, ?_⟩
  · calc (1 - u) ^ (n + 1) * y = (1 - u) * ((1 - u) ^ n * y) := by ring
      _ ≤ (1 - u) * x := mul_le_mul_of_nonneg_left c.lo (by linarith)
      _ ≤ rd x := by linarith [hn.1]
  · have h2 : rd x ≤ (1 + u) * x := by linarith [hn.2]
    calc (1 - u) ^ (n + 1) * rd x ≤ (1 - u) ^ (n + 1) * ((1 + u) * x) :=
          mul_le_mul_of_nonneg_left h2 (h.pos _).le
      _ = (1 - u ^ 2) * ((1 - u) ^ n * x) := by ring
      _ ≤ 1 * ((1 - u) ^ n * x) :=
          mul_le_mul_of_nonneg_right (by nlinarith) (mul_nonneg hp.le hx)
      _ ≤ y := by rw [one_mul]; exact c.hi

theorem Close.add (h : Rounds u rd) (c : Close u n x y) (d : Close u n a b) :
    Close u (n + 1) (rd (x + a)) (y + b) := by
  refine Close.round h ⟨add_nonneg c.nonneg d.nonneg, ?_, ?_⟩
  · rw [mul_add]; exact add_le_add c.lo d.lo
  · rw [mul_add]; exact add_le_add c.hi d.hi

theorem Close.mul (h : Rounds u rd) (c : Close u n x y) (d : Close u m a b) :
    Close u (n + m + 1) (rd (x * a)) (y * b) := by
  refine Close.round h ⟨mul_nonneg c.nonneg d.nonneg, ?_, ?_⟩
  · rw [pow_add, mul_mul_mul_comm]
    exact mul_le_mul c.lo d.lo (mul_nonneg (h.pos m).le d.nonneg) (c.x_nonneg h)
  · rw [pow_add, mul_mul_mul_comm]
    exact mul_le_mul c.hi d.hi (mul_nonneg (h.pos m).le (d.x_nonneg h)) c.nonneg

theorem Close.inv (h : Rounds u rd) (d : Close u m a b) : Close u m a⁻¹ b⁻¹ := by
  by_cases hb : b = 0
  · have ha := (d.eq_zero_iff h).2 hb
    subst hb ha
    simpa using d
  · have ha : a ≠ 0 := fun h0 => hb ((d.eq_zero_iff h).1 h0)
    have hb' : 0 < b := lt_of_le_of_ne d.nonneg (Ne.symm hb)
    have ha' : 0 < a := lt_of_le_of_ne (d.x_nonneg h) (Ne.symm ha)
    refine ⟨inv_nonneg.2 d.nonneg, ?_, ?_⟩
    · rw [← div_eq_mul_inv, div_le_iff₀ hb', ← div_eq_inv_mul, le_div_iff₀ ha']
      exact d.hi
    · rw [← div_eq_mul_inv, div_le_iff₀ ha', ← div_eq_inv_mul, le_div_iff₀ hb']
      exact d.lo

theorem Close.div (h : Rounds u rd) (c : Close u n x y) (d : Close u m a b) :
    Close u (n + m + 1) (rd (x / a)) (y / b) := by
  rw [div_eq_mul_inv, div_eq_mul_inv]
  exact c.mul h (d.inv h)

/-- The relative error in the usual form. -/
theorem Close.relative (h : Rounds u rd) (c : Close u n x y) (hn : 2 * (n * u) ≤ 1) :
    |x - y| ≤ 2 * (n * u) * y := by
  have hb : 1 - n * u ≤ (1 - u) ^ n := by
    have h0 := h.nonneg
    have h1 := h.lt_one
    clear hn c
    induction n with
    | zero => simp
    | succ n ih =>
      have hn0 : (0 : ℚ) ≤ n := Nat.cast_nonneg _
      rw [pow_succ]
      push_cast
      nlinarith [mul_le_mul_of_nonneg_right ih (sub_pos.2 h1).le, mul_nonneg hn0 (mul_nonneg h0 h0)]
  have hnu : 0 ≤ n * u := mul_nonneg (Nat.cast_nonneg _) h.nonneg
  have hx := c.x_nonneg h
  have hy := c.nonneg
  have h1 : (1 - n * u) * y ≤ x := le_trans (mul_le_mul_of_nonneg_right hb hy) c.lo
  have h2 : (1 - n * u) * x ≤ y := le_trans (mul_le_mul_of_nonneg_right hb hx) c.hi
  rw [abs_le]
  constructor
  · nlinarith
  · have h3 : x ≤ 2 * y := by nlinarith
    nlinarith

end

end Verif.BBN
