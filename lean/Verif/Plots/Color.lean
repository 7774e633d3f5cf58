import Verif.Float.Basic
import Verif.Str.Basic
import Mathlib.Tactic.IntervalCases

/-!
# Colour gradients

Model of `color_gradient_string` in `plots/plots.py`. The rounding of floats is a parameter: `id` for exact arithmetic, `Verif.Float.rnd` for
double precision.
-/

namespace Verif.Plots

open Verif.Str Verif.Float

/-- The errors. -/
inductive Err
  | attributeError
  | zeroDivision
  deriving DecidableEq, Repr

/-- The value of a digit in `[0-9a-fA-F]`: `plots/plots.py:163-165`. -/
def hexVal (c : Char) : Option ℕ :=
  if '0' ≤ c ∧ c ≤ '9' then some (c.toNat - 48)
  else if 'a' ≤ c ∧ c ≤ 'f' then some (c.toNat - 87)
  else if 'A' ≤ c ∧ c ≤ 'F' then some (c.toNat - 55)
  else none

/-- `int(v, 16)` for a group of two digits; `none` if they are no digits. -/
def pairVal (x y : Char) : Option ℕ :=
  match hexVal x, hexVal y with
  | some a, some b => some (16 * a + b)
  | _, _ => none

/-- The last group `(..)*` of the expression: the last of the pairs of digits that follow: `plots/plots.py:164`. -/
def lastPair : Str → Option ℕ
  | x :: y :: s =>
    match pairVal x y with
    | some v => some ((lastPair s).getD v)
    | none => none
  | _ => none

/-- The groups of `color_regex.match(color)` as numbers, without the first; what follows a match is ignored. No match has no `groups`:
`plots/plots.py:163-172`. -/
def parseColor : Str → Except Err (List ℕ)
  | '#' :: a :: b :: c :: d :: e :: f :: s =>
    match pairVal a b, pairVal c d, pairVal e f with
    | some r, some g, some b => .ok [r, g, b, (lastPair s).getD 0]
    | _, _, _ => .error .attributeError
  | _ => .error .attributeError

/-- `int(x)` for a float: truncation. -/
def truncate (q : ℚ) : ℤ := if q < 0 then ⌈q⌉ else ⌊q⌋

/-- `format(v, "02x")`. -/
def formatHex (v : ℤ) : Str :=
  let sign := if v < 0 then ['-'] else []
  let digits := Nat.toDigits 16 v.natAbs
  sign ++ List.replicate (2 - sign.length - digits.length) '0' ++ digits

/-- One channel of one colour: `int(f + d * i)` with `d = (t - f) / steps`: `plots/plots.py:174`, `179`. -/
def channel (R : ℚ → ℚ) (f t : ℕ) (steps : ℤ) (i : ℕ) : ℤ :=
  truncate (R (f + R (R (((t : ℚ) - f) / steps) * R i)))

/-- `"%.2f" % x` for a number that is not negative: `plots/plots.py:185`. -/
def fixed2 (q : ℚ) : Str :=
  let m := (roundEven (q * 100)).toNat
  natStr (m / 100) ++ ['.'] ++ natStr (m % 100 / 10) ++ natStr (m % 10)

/-- `color_gradient_string`: `plots/plots.py:138-186`. -/
def gradient (R : ℚ → ℚ) (fromColor toColor : Str) (steps : ℤ) : Except Err Str :=
  match parseColor fromColor with
  | .error e => .error e
  | .ok fs =>
    match parseColor toColor with
    | .error e => .error e
    | .ok ts =>
      if steps = 0 then .error .zeroDivision
      else
        let colors := (List.range (steps + 1).toNat).map fun i =>
          '#' :: ((fs.zip ts).map fun p => formatHex (channel R p.1 p.2 steps i)).flatten
        .ok (List.intercalate [':'] (colors.map fun c => c ++ [';'] ++ fixed2 (R (1 / ((steps : ℚ) + 1)))))

/-! ### Specification -/

/-- The digit of value `n` (below 16). -/
def hexDigit (n : ℕ) : Char := ['0', '1', '2', '3', '4', '5', '6', '7', '8', '9', 'a', 'b', 'c', 'd', 'e', 'f'].getD n '0'

/-- `c` is the digit of value `n`, in lower or upper case. -/
def IsDigit (c : Char) (n : ℕ) : Prop :=
  n < 16 ∧ (c = hexDigit n ∨ c = ['0', '1', '2', '3', '4', '5', '6', '7', '8', '9', 'A', 'B', 'C', 'D', 'E', 'F'].getD n '0')

/-- The text of a colour: `#` and two digits for each channel. -/
def colorText (c : List ℕ) : Str := '#' :: c.flatMap fun v => [hexDigit (v / 16), hexDigit (v % 16)]

/-- `s` is a text of the colour `c`, up to the case of the digits. -/
def Denotes (s : Str) (c : List ℕ) : Prop :=
  ∃ ds : List Char, s = '#' :: ds ∧ List.Forall₂ IsDigit ds (c.flatMap fun v => [v / 16, v % 16])

/-- The text of a gradient: colours with the same share each. -/
def gradientText (cs : List (List ℕ)) (share : Str) : Str :=
  List.intercalate [':'] (cs.map fun c => colorText c ++ [';'] ++ share)

/-- `x` is between `a` and `b`. -/
def Between (a b x : ℕ) : Prop := min a b ≤ x ∧ x ≤ max a b

/-- A share of `1 / k` with two decimals. -/
def IsShare (k : ℕ) (s : Str) : Prop :=
  ∃ m : ℕ, m < 100 ∧ s = ['0', '.', hexDigit (m / 10), hexDigit (m % 10)] ∧ |(m : ℚ) / 100 - 1 / k| ≤ 1 / 200 + 1 / 2 ^ 50

end Verif.Plots
