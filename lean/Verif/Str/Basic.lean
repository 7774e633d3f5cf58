import Mathlib.Data.List.Basic
import Mathlib.Data.Nat.Notation

/-!
# Strings

Python's strings as lists of characters, with the operations the code uses.
-/

namespace Verif.Str

/-- A string. -/
abbrev Str := List Char

/-- `str(n)` or `"{}".format(n)` for a natural number. -/
def natStr (n : ℕ) : Str := Nat.toDigits 10 n

/-- `int(s)` for a string of decimal digits (simplification: `int` also accepts signs, white space and
underscores; no such string is parsed). -/
def pyInt (s : Str) : Option ℕ :=
  if s ≠ [] ∧ s.all Char.isDigit then some (Nat.ofDigitChars 10 s 0) else none

/-- `s.split(sep)` for a non-empty separator; the number counts the characters of a separator that are
still to be skipped. -/
def splitGo (sep : Str) : ℕ → Str → List Str
  | _, [] => [[]]
  | k + 1, _ :: s => splitGo sep k s
  | 0, c :: s =>
    if sep.isPrefixOf (c :: s) then [] :: splitGo sep (sep.length - 1) s
    else match splitGo sep 0 s with
      | [] => [[c]]
      | x :: xs => (c :: x) :: xs

/-- `s.split(sep)`. -/
def split (sep s : Str) : List Str := splitGo sep 0 s

theorem natStr_ne_nil (n : ℕ) : natStr n ≠ [] := Nat.toDigits_ne_nil

theorem natStr_digit {n : ℕ} {c : Char} (h : c ∈ natStr n) : c.isDigit = true :=
  Nat.isDigit_of_mem_toDigits (by decide) (by decide) h

theorem pyInt_natStr (n : ℕ) : pyInt (natStr n) = some n := by
  have h : (natStr n).all Char.isDigit = true := List.all_eq_true.2 fun c hc => natStr_digit hc
  unfold pyInt
  rw [if_pos ⟨natStr_ne_nil n, h⟩, natStr, Nat.ofDigitChars_ten_toDigits]

theorem natStr_inj {m n : ℕ} (h : natStr m = natStr n) : m = n := by
  have h1 := pyInt_natStr m
  rw [h, pyInt_natStr] at h1
  exact (Option.some.inj h1).symm

theorem splitGo_skip (sep : Str) (p s : Str) : splitGo sep p.length (p ++ s) = splitGo sep 0 s := by
  induction p with
  | nil => rfl
  | cons c p ih =>
    rw [List.cons_append, List.length_cons, splitGo, ih]

/-- Splitting at the first separator: no character of `u` begins a separator. -/
theorem split_append {a : Char} {sep u s : Str} (hu : a ∉ u) :
    split (a :: sep) (u ++ (a :: sep) ++ s) = u :: split (a :: sep) s := by
  unfold split
  induction u with
  | nil =>
    rw [List.nil_append, List.cons_append, splitGo, if_pos]
    · rw [List.length_cons, Nat.add_sub_cancel, splitGo_skip]
    · rw [List.isPrefixOf_iff_prefix]
      exact ⟨s, rfl⟩
  | cons c u ih =>
    rw [List.cons_append, List.cons_append, splitGo, if_neg, ih (fun h => hu (List.mem_cons_of_mem _ h))]
    rw [List.isPrefixOf_iff_prefix]
    intro h
    have := (List.cons_prefix_cons.1 h).1
    exact hu (by rw [this]; exact List.mem_cons_self)

theorem split_none {a : Char} {sep u : Str} (hu : a ∉ u) : split (a :: sep) u = [u] := by
  unfold split
  induction u with
  | nil => rfl
  | cons c u ih =>
    rw [splitGo, if_neg, ih (fun h => hu (List.mem_cons_of_mem _ h))]
    rw [List.isPrefixOf_iff_prefix]
    intro h
    have := (List.cons_prefix_cons.1 h).1
    exact hu (by rw [this]; exact List.mem_cons_self)

/-- A number at the end of a string, after a character that is no digit, can be read back. -/
theorem append_natStr_inj {u u' : Str} {a b : Char} {m n : ℕ} (ha : a.isDigit = false)
    (hb : b.isDigit = false) (h : u ++ a :: natStr m = u' ++ b :: natStr n) :
    u = u' ∧ a = b ∧ m = n := by
  have key : ∀ (u : Str) (a : Char) (m : ℕ), a.isDigit = false →
      (u ++ a :: natStr m).reverse.takeWhile Char.isDigit = (natStr m).reverse := by
    intro u a m ha
    have : (u ++ a :: natStr m).reverse = (natStr m).reverse ++ (a :: u.reverse) := by simp
    rw [this, List.takeWhile_append_of_pos]
    · rw [List.takeWhile_cons, ha]; simp
    · intro c hc
      exact natStr_digit (List.mem_reverse.1 hc)
  have h1 := key u a m ha
  rw [h, key u' b n hb] at h1
  have h2 : natStr n = natStr m := by
    have := congrArg List.reverse h1
    simpa using this
  have h3 := natStr_inj h2
  subst h3
  have h4 : u ++ [a] ++ natStr n = u' ++ [b] ++ natStr n := by simpa using h
  have h5 := List.append_cancel_right h4
  have h6 := List.append_inj' h5 rfl
  exact ⟨h6.1, by simpa using h6.2, rfl⟩

end Verif.Str
