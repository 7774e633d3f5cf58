import Verif.Mapper.Props

/-!
# Which strings are accepted as numbers of categories
-/

namespace Verif.Mapper

open Verif.Str

/-- Specification: digits and underscores after the character `prev`; the last character is a digit, and there are no two underscores in a
row. -/
def Digits (prev : Char) (s : Str) : Prop :=
  (∀ c ∈ s, c.isDigit = true ∨ c = '_') ∧ ((prev :: s).getLast (by simp)).isDigit = true ∧
    (prev :: s).IsChain fun c c' => ¬ (c = '_' ∧ c' = '_')

theorem digitsOk_iff (s : Str) : ∀ (b : Bool) (prev : Char), prev.isDigit = b → (b = false → prev = '_') → (digitsOk b s = true ↔ Digits prev s) := by
  induction s with
  | nil =>
    intro b prev hb _
    simp [digitsOk, Digits, hb]
  | cons c s ih =>
    intro b prev hb hu
    have hstep : (c.isDigit = true ∨ c = '_' ∧ prev ≠ '_') → (Digits prev (c :: s) ↔ Digits c s) := by
      intro hc
      unfold Digits
      rw [List.isChain_cons_cons, List.getLast_cons (by simp)]
      constructor
      · rintro ⟨h1, h2, -, h3⟩
        exact ⟨fun d hd => h1 d (List.mem_cons_of_mem _ hd), h2, h3⟩
      · rintro ⟨h1, h2, h3⟩
        refine ⟨?_, h2, ?_, h3⟩
        · intro d hd
          rcases List.mem_cons.1 hd with rfl | hd
          · exact hc.imp id And.left
          · exact h1 d hd
        · rintro ⟨e1, e2⟩
          rcases hc with hc | hc
          · rw [e2] at hc; exact absurd hc (by decide)
          · exact hc.2 e1
    rw [digitsOk.eq_def]
    simp only
    by_cases hc : c.isDigit = true
    · rw [if_pos hc, hstep (Or.inl hc)]
      exact ih true c hc (fun h => by cases h)
    rw [if_neg hc]
    by_cases hcu : c = '_'
    · subst hcu
      cases b with
      | false =>
        obtain rfl := hu rfl
        rw [if_neg (by simp)]
        refine iff_of_false (by simp) ?_
        rintro ⟨-, -, h⟩
        exact (List.isChain_cons_cons.1 h).1 ⟨rfl, rfl⟩
      | true =>
        rw [if_pos (by simp), hstep (Or.inr ⟨rfl, fun e => by rw [e] at hb; exact absurd hb (by decide)⟩)]
        have hi := ih false '_' (by decide) (fun _ => rfl)
        cases s with
        | nil =>
          refine iff_of_false (by simp) ?_
          rintro ⟨-, h, -⟩
          exact absurd h (by decide)
        | cons d t =>
          rw [← hi, Bool.and_eq_true]
          refine ⟨And.right, fun h => ⟨?_, h⟩⟩
          obtain ⟨h1, -, h3⟩ := hi.1 h
          rcases h1 d List.mem_cons_self with h4 | h4
          · exact h4
          · exact absurd ⟨rfl, h4⟩ (List.isChain_cons_cons.1 h3).1
    · rw [if_neg (by simp [hcu])]
      refine iff_of_false (by simp) ?_
      rintro ⟨h, -⟩
      exact (h c List.mem_cons_self).elim hc hcu

/-- What `int` accepts without a sign: digits, with single underscores between them; the value is that of the digits. -/
theorem unsigned_spec (s : Str) (n : ℕ) : unsigned s = some n ↔
    ((∀ c ∈ s, c.isDigit = true ∨ c = '_') ∧ (∃ c, s.head? = some c ∧ c.isDigit = true) ∧ (∃ c, s.getLast? = some c ∧ c.isDigit = true) ∧
      s.IsChain fun c c' => ¬ (c = '_' ∧ c' = '_')) ∧ Nat.ofDigitChars 10 (s.filter Char.isDigit) 0 = n := by
  unfold unsigned
  have hd : digitsOk false s = true ↔ ((∀ c ∈ s, c.isDigit = true ∨ c = '_') ∧ (∃ c, s.head? = some c ∧ c.isDigit = true) ∧
      (∃ c, s.getLast? = some c ∧ c.isDigit = true) ∧ s.IsChain fun c c' => ¬ (c = '_' ∧ c' = '_')) := by
    rw [digitsOk_iff s false '_' (by decide) fun _ => rfl]
    unfold Digits
    cases s with
    | nil => simp
    | cons c s =>
      rw [List.isChain_cons_cons, List.getLast_cons (by simp)]
      constructor
      · rintro ⟨h1, h2, h3, h4⟩
        refine ⟨h1, ⟨c, rfl, (h1 c List.mem_cons_self).resolve_right fun h => h3 ⟨rfl, h⟩⟩, ⟨_, List.getLast?_eq_some_getLast (by simp), h2⟩, h4⟩
      · rintro ⟨h1, ⟨d, h2, h3⟩, ⟨d', h4, h5⟩, h6⟩
        cases h2
        rw [List.getLast?_eq_some_getLast (by simp)] at h4
        cases h4
        refine ⟨h1, h5, ?_, h6⟩
        rintro ⟨-, rfl⟩
        exact absurd h3 (by decide)
  by_cases h : digitsOk false s = true
  · rw [if_pos h, Option.some.injEq]
    exact ⟨fun e => ⟨hd.1 h, e⟩, And.right⟩
  · rw [if_neg h]
    refine iff_of_false (by simp) ?_
    rintro ⟨h', -⟩
    exact h (hd.2 h')

example : unsigned "1_000".toList = some 1000 ∧ unsigned "1__0".toList = none ∧ unsigned "_1".toList = none ∧ unsigned "1_".toList = none := by
  decide

end Verif.Mapper
