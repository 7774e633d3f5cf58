import Verif.Plots.ColorProps

/-!
C68: the statements about colour gradients.
-/

namespace Verif.Plots

open Verif.Str Verif.Float

/-- What a gradient from `a` to `b` with `n` steps should be: `n + 1` colours with the same share each; the first is `a`, the last is `b`,
every channel is between those of `a` and `b`, and the channels of colour `i` are those of a linear interpolation, rounded down. -/
def IsGradient (a b : List ℕ) (n : ℕ) (s : Str) : Prop :=
  ∃ cs share, s = gradientText cs share ∧ IsShare (n + 1) share ∧ cs.length = n + 1 ∧ cs[0]? = some a ∧ cs[n]? = some b ∧
    ∀ (i : ℕ) (c : List ℕ), cs[i]? = some c → c.length = 4 ∧ ∀ k < 4, Between (a.getD k 0) (b.getD k 0) (c.getD k 0) ∧
      (c.getD k 0 : ℤ) = ⌊((a.getD k 0 : ℚ) + ((b.getD k 0 : ℚ) - a.getD k 0) * i / n)⌋

/-- The same up to an error of one unit per channel: the last colour can be one less than `b`, and a channel can be one less than those
of both `a` and `b`. -/
def IsRoughGradient (a b : List ℕ) (n : ℕ) (s : Str) : Prop :=
  ∃ cs share, s = gradientText cs share ∧ IsShare (n + 1) share ∧ cs.length = n + 1 ∧ cs[0]? = some a ∧
    ∀ (i : ℕ) (c : List ℕ), cs[i]? = some c → c.length = 4 ∧ ∀ k < 4,
      min (a.getD k 0) (b.getD k 0) ≤ c.getD k 0 + 1 ∧ c.getD k 0 ≤ max (a.getD k 0) (b.getD k 0) ∧
      (i = n → c.getD k 0 = b.getD k 0 ∨ c.getD k 0 + 1 = b.getD k 0)

theorem gradientColors_get (R : ℚ → ℚ) {a b : List ℕ} (ha : a.length = 4) (hb : b.length = 4) {n i : ℕ} {c : List ℕ}
    (h : (gradientColors R a b n)[i]? = some c) :
    i ≤ n ∧ c.length = 4 ∧ ∀ k < 4, c.getD k 0 = (channel R (a.getD k 0) (b.getD k 0) n i).toNat := by
  unfold gradientColors at h
  rw [List.getElem?_map] at h
  cases hr : (List.range (n + 1))[i]? with
  | none => rw [hr] at h; cases h
  | some i' =>
    rw [hr] at h
    obtain ⟨q1, q2⟩ := List.getElem?_eq_some_iff.1 hr
    rw [List.getElem_range] at q2
    subst q2
    cases h
    rw [List.length_range] at q1
    refine ⟨by omega, by simp [ha, hb], fun k hk => ?_⟩
    rw [List.getD_eq_getElem?_getD, List.getElem?_map, List.getElem?_eq_getElem (by simp [ha, hb]; omega), List.getElem_zip]
    simp only [Option.map_some, Option.getD_some]
    rw [List.getD_eq_getElem?_getD, List.getD_eq_getElem?_getD, List.getElem?_eq_getElem (by omega), List.getElem?_eq_getElem (by omega)]
    rfl

theorem eq_of_getD {a c : List ℕ} (ha : a.length = 4) (hc : c.length = 4) (h : ∀ k < 4, c.getD k 0 = a.getD k 0) : c = a := by
  refine List.ext_getElem (by omega) fun k h1 h2 => ?_
  have := h k (by omega)
  rwa [List.getD_eq_getElem?_getD, List.getD_eq_getElem?_getD, List.getElem?_eq_getElem h1, List.getElem?_eq_getElem h2] at this

theorem zip_channel {a b : List ℕ} {p : ℕ × ℕ} (hp : p ∈ a.zip b) (ha : ∀ v ∈ a, v < 256) (hb : ∀ v ∈ b, v < 256) : p.1 < 256 ∧ p.2 < 256 := by
  obtain ⟨h1, h2⟩ := List.of_mem_zip (a := p.1) (b := p.2) hp
  exact ⟨ha _ h1, hb _ h2⟩

theorem getD_byte {a : List ℕ} (ha : ∀ v ∈ a, v < 256) (k : ℕ) : a.getD k 0 < 256 := by
  rw [List.getD_eq_getElem?_getD]
  cases h : a[k]? with
  | none => simp
  | some v => exact ha v (List.mem_of_getElem? h)

/-- Without rounding errors in the channels the result is a gradient. -/
theorem gradient_of_exact {R : ℚ → ℚ} {s₁ s₂ : Str} {a b : List ℕ} (ha : Denotes s₁ a) (hb : Denotes s₂ b) (hla : a.length = 4)
    (hlb : b.length = 4) {n : ℕ} (hn : 1 ≤ n)
    (hR : ∀ f t i : ℕ, f < 256 → t < 256 → i ≤ n → R (f + R (R (((t : ℚ) - f) / n) * R i)) = f + ((t : ℚ) - f) / n * i)
    (hs : |R (1 / ((n : ℚ) + 1)) - 1 / (n + 1)| ≤ 1 / 2 ^ 50) :
    ∃ s, gradient R s₁ s₂ n = .ok s ∧ IsGradient a b n s := by
  obtain ⟨pa, ba⟩ := denotes_four ha hla
  obtain ⟨pb, bb⟩ := denotes_four hb hlb
  refine ⟨_, gradient_ok R pa pb hn ?_, gradientColors R a b n, _, rfl, fixed2_share hn hs, by simp [gradientColors], ?_⟩
  · intro p hp i hi
    obtain ⟨h1, h2⟩ := zip_channel hp ba bb
    obtain ⟨v, hv, ⟨-, h3⟩, -⟩ := channel_exact hn hi (hR _ _ i h1 h2 hi)
    rw [hv]
    omega
  · have key : ∀ (i : ℕ) (c : List ℕ), (gradientColors R a b n)[i]? = some c → c.length = 4 ∧ i ≤ n ∧ ∀ k < 4,
        Between (a.getD k 0) (b.getD k 0) (c.getD k 0) ∧ (i = 0 → c.getD k 0 = a.getD k 0) ∧ (i = n → c.getD k 0 = b.getD k 0) ∧
        (c.getD k 0 : ℤ) = ⌊((a.getD k 0 : ℚ) + ((b.getD k 0 : ℚ) - a.getD k 0) * i / n)⌋ := by
      intro i c hc
      obtain ⟨hi, hlc, hk⟩ := gradientColors_get R hla hlb hc
      refine ⟨hlc, hi, fun k hk4 => ?_⟩
      obtain ⟨v, hv, h1, h2, h3, h4, h5⟩ := channel_exact hn hi (hR _ _ i (getD_byte ba k) (getD_byte bb k) hi)
      have hcv : c.getD k 0 = v := by rw [hk k hk4, hv]; rfl
      rw [hcv]
      refine ⟨h1, h2, h3, ?_⟩
      symm
      rw [Int.floor_eq_iff]
      have e : ((a.getD k 0 : ℕ) : ℚ) + (((b.getD k 0 : ℕ) : ℚ) - (a.getD k 0 : ℕ)) * i / n =
          (a.getD k 0 : ℕ) + (((b.getD k 0 : ℕ) : ℚ) - (a.getD k 0 : ℕ)) / n * i := by ring
      rw [e]
      push_cast
      constructor
      · exact h4
      · linarith
    have hlen : (gradientColors R a b n).length = n + 1 := by simp [gradientColors]
    refine ⟨?_, ?_, fun i c hc => ⟨(key i c hc).1, fun k hk => ⟨((key i c hc).2.2 k hk).1, ((key i c hc).2.2 k hk).2.2.2⟩⟩⟩
    · obtain ⟨k1, -, k2⟩ := key 0 _ (List.getElem?_eq_getElem (by omega))
      rw [List.getElem?_eq_getElem (by omega)]
      exact congrArg some (eq_of_getD hla k1 fun k hk => (k2 k hk).2.1 rfl)
    · obtain ⟨k1, -, k2⟩ := key n _ (List.getElem?_eq_getElem (by omega))
      rw [List.getElem?_eq_getElem (by omega)]
      exact congrArg some (eq_of_getD hlb k1 fun k hk => (k2 k hk).2.2.1 rfl)

/-- **C68**, with exact arithmetic: for all colours with transparency and all numbers of steps. -/
theorem gradient_exact {s₁ s₂ : Str} {a b : List ℕ} (ha : Denotes s₁ a) (hb : Denotes s₂ b) (hla : a.length = 4) (hlb : b.length = 4)
    {n : ℕ} (hn : 1 ≤ n) : ∃ s, gradient id s₁ s₂ n = .ok s ∧ IsGradient a b n s :=
  gradient_of_exact ha hb hla hlb hn (fun _ _ _ _ _ _ => rfl) (by simp)

theorem rnd_share (n : ℕ) : |rnd (1 / ((n : ℚ) + 1)) - 1 / (n + 1)| ≤ 1 / 2 ^ 50 := by
  refine le_trans (rnd_near _) ?_
  have h : |(1 : ℚ) / (n + 1)| ≤ 1 := by
    rw [abs_of_pos (by positivity), div_le_one (by positivity)]
    have : (0 : ℚ) ≤ n := by positivity
    linarith
  calc |(1 : ℚ) / (n + 1)| / 2 ^ 53 ≤ 1 / 2 ^ 53 := by gcongr
    _ ≤ 1 / 2 ^ 50 := by norm_num

/-- **C68**, with Python's floats, for a number of steps that is a power of two. -/
theorem gradient_double_exact {s₁ s₂ : Str} {a b : List ℕ} (ha : Denotes s₁ a) (hb : Denotes s₂ b) (hla : a.length = 4) (hlb : b.length = 4)
    {e : ℕ} (he : e ≤ 44) : ∃ s, gradient rnd s₁ s₂ ((2 ^ e : ℕ) : ℤ) = .ok s ∧ IsGradient a b (2 ^ e) s := by
  refine gradient_of_exact ha hb hla hlb Nat.one_le_two_pow ?_ (rnd_share _)
  intro f t i hf ht hi
  have hpow : (2 : ℕ) ^ e ≤ 2 ^ 44 := Nat.pow_le_pow_right (by norm_num) he
  have e0 : ((2 ^ e : ℕ) : ℚ) = 2 ^ (e : ℤ) := by push_cast; rw [zpow_natCast]
  have hpos : (0 : ℚ) < 2 ^ (e : ℤ) := by positivity
  have e1 : ((t : ℚ) - f) / ((2 ^ e : ℕ) : ℚ) = (((t : ℤ) - f : ℤ) : ℚ) * 2 ^ (-(e : ℤ)) := by
    rw [e0, zpow_neg]; push_cast; rw [div_eq_mul_inv]
  have e2 : rnd (i : ℚ) = i := by
    have := rnd_int (n := (i : ℤ)) (by rw [abs_of_nonneg (by positivity)]; omega)
    exact_mod_cast this
  have hti : |((t : ℤ) - f) * i| ≤ 255 * 2 ^ 44 := by
    rw [abs_mul]
    refine mul_le_mul (by rw [abs_le]; constructor <;> omega) ?_ (abs_nonneg _) (by norm_num)
    rw [abs_of_nonneg (by positivity)]
    exact_mod_cast le_trans hi hpow
  have e3 : (((t : ℤ) - f : ℤ) : ℚ) * 2 ^ (-(e : ℤ)) * i = ((((t : ℤ) - f) * i : ℤ) : ℚ) * 2 ^ (-(e : ℤ)) := by push_cast; ring
  have e4 : (f : ℚ) + ((((t : ℤ) - f) * i : ℤ) : ℚ) * 2 ^ (-(e : ℤ)) = ((f * 2 ^ e + ((t : ℤ) - f) * i : ℤ) : ℚ) * 2 ^ (-(e : ℤ)) := by
    rw [zpow_neg]
    push_cast
    rw [zpow_natCast, add_mul, mul_inv_cancel_right₀ (by positivity)]
  rw [e1, e2, rnd_exact (by rw [abs_lt]; constructor <;> omega), e3, rnd_exact (by omega), e4, rnd_exact]
  have h1 : (f : ℤ) * 2 ^ e ≤ 255 * 2 ^ 44 := by
    have : (2 : ℤ) ^ e ≤ 2 ^ 44 := by exact_mod_cast hpow
    exact mul_le_mul (by omega) this (by positivity) (by norm_num)
  have h2 : 0 ≤ (f : ℤ) * 2 ^ e := by positivity
  rw [abs_le] at hti
  rw [abs_lt]
  constructor <;> omega

/-- **C68**, with Python's floats, for all numbers of steps: partial, since the last colour and the range are only right up to one unit.
`gradient_off` shows that this cannot be improved. -/
theorem gradient_double_partial {s₁ s₂ : Str} {a b : List ℕ} (ha : Denotes s₁ a) (hb : Denotes s₂ b) (hla : a.length = 4)
    (hlb : b.length = 4) {n : ℕ} (hn : 1 ≤ n) : ∃ s, gradient rnd s₁ s₂ n = .ok s ∧ IsRoughGradient a b n s := by
  obtain ⟨pa, ba⟩ := denotes_four ha hla
  obtain ⟨pb, bb⟩ := denotes_four hb hlb
  refine ⟨_, gradient_ok rnd pa pb hn ?_, gradientColors rnd a b n, _, rfl, fixed2_share hn (rnd_share n), by simp [gradientColors], ?_⟩
  · intro p hp i hi
    obtain ⟨h1, h2⟩ := zip_channel hp ba bb
    obtain ⟨v, hv, -, h3, -⟩ := channel_double h1 h2 hn hi
    rw [hv]
    omega
  · have key : ∀ (i : ℕ) (c : List ℕ), (gradientColors rnd a b n)[i]? = some c → c.length = 4 ∧ ∀ k < 4,
        (i = 0 → c.getD k 0 = a.getD k 0) ∧ min (a.getD k 0) (b.getD k 0) ≤ c.getD k 0 + 1 ∧ c.getD k 0 ≤ max (a.getD k 0) (b.getD k 0) ∧
        (i = n → c.getD k 0 = b.getD k 0 ∨ c.getD k 0 + 1 = b.getD k 0) := by
      intro i c hc
      obtain ⟨hi, hlc, hk⟩ := gradientColors_get rnd hla hlb hc
      refine ⟨hlc, fun k hk4 => ?_⟩
      obtain ⟨v, hv, h1, h2, h3, h4, h5⟩ := channel_double (getD_byte ba k) (getD_byte bb k) hn hi
      have hcv : c.getD k 0 = v := by rw [hk k hk4, hv]; rfl
      rw [hcv]
      refine ⟨h3, h1, h2, fun hin => ?_⟩
      have hn' : (n : ℚ) ≠ 0 := by
        have : (n : ℕ) ≠ 0 := by omega
        exact_mod_cast this
      rw [hin, div_mul_cancel₀ _ hn', add_sub_cancel] at h4 h5
      have g1 : (v : ℚ) < ((b.getD k 0 : ℕ) : ℚ) + 1 := by linarith [show (1 : ℚ) / 2 ^ 42 < 1 by norm_num]
      have g2 : ((b.getD k 0 : ℕ) : ℚ) < v + 2 := by linarith [show (1 : ℚ) / 2 ^ 42 < 1 by norm_num]
      have g1' : v < b.getD k 0 + 1 := by exact_mod_cast g1
      have g2' : b.getD k 0 < v + 2 := by exact_mod_cast g2
      omega
    have hlen : (gradientColors rnd a b n).length = n + 1 := by simp [gradientColors]
    refine ⟨?_, fun i c hc => ⟨(key i c hc).1, fun k hk => ((key i c hc).2 k hk).2⟩⟩
    obtain ⟨k1, k2⟩ := key 0 _ (List.getElem?_eq_getElem (by omega))
    rw [List.getElem?_eq_getElem (by omega)]
    exact congrArg some (eq_of_getD hla k1 fun k hk => (k2 k hk).1 rfl)

/-- With Python's floats and seven steps from `#00000000` to `#ed0600ff` the last colour is `#ec0600ff`, not the requested one; and from
`#23000000` to `#06000000` the last colour is `#05000000`, outside the range of the two. -/
theorem gradient_off :
    (∃ s, gradient rnd ['#', '0', '0', '0', '0', '0', '0', '0', '0'] ['#', 'e', 'd', '0', '6', '0', '0', 'f', 'f'] 7 = .ok s ∧
      s.drop 105 = ['#', 'e', 'c', '0', '6', '0', '0', 'f', 'f', ';', '0', '.', '1', '2']) ∧
    (∃ s, gradient rnd ['#', '2', '3', '0', '0', '0', '0', '0', '0'] ['#', '0', '6', '0', '0', '0', '0', '0', '0'] 7 = .ok s ∧
      s.drop 105 = ['#', '0', '5', '0', '0', '0', '0', '0', '0', ';', '0', '.', '1', '2']) := by
  have key : ∀ (r : Except Err Str) (l : Str), (match r with | .ok s => decide (s.drop 105 = l) | .error _ => false) = true →
      ∃ s, r = .ok s ∧ s.drop 105 = l := by
    intro r l h
    cases r with
    | error e => cases h
    | ok s => exact ⟨s, rfl, of_decide_eq_true h⟩
  exact ⟨key _ _ (by decide +kernel), key _ _ (by decide +kernel)⟩

/-- Colours without transparency become fully transparent: the gradient is the one of the colours followed by `00`. -/
theorem gradient_rgb (R : ℚ → ℚ) {s₁ s₂ : Str} {a b : List ℕ} (ha : Denotes s₁ a) (hb : Denotes s₂ b) (hla : a.length = 3)
    (hlb : b.length = 3) (n : ℤ) : gradient R s₁ s₂ n = gradient R (s₁ ++ ['0', '0']) (s₂ ++ ['0', '0']) n := by
  have key : ∀ {s : Str} {c : List ℕ}, Denotes s c → c.length = 3 → parseColor s = parseColor (s ++ ['0', '0']) := by
    intro s c h hl
    rw [denotes_three h hl]
    obtain ⟨ds, rfl, hd⟩ := h
    have h4 : Denotes ('#' :: ds ++ ['0', '0']) (c ++ [0]) := by
      refine ⟨ds ++ ['0', '0'], rfl, ?_⟩
      rw [List.flatMap_append]
      refine List.rel_append hd ?_
      exact .cons ⟨by norm_num, Or.inl rfl⟩ (.cons ⟨by norm_num, Or.inl rfl⟩ .nil)
    exact (denotes_four h4 (by simp [hl])).1.symm
  unfold gradient
  rw [key ha hla, key hb hlb]

/-- The inputs that raise: a text that does not begin with `#` and six digits (`AttributeError`), and zero steps. -/
theorem gradient_errors (R : ℚ → ℚ) (s₁ s₂ : Str) (n : ℤ) :
    (gradient R s₁ s₂ n = .error .attributeError ↔ parseColor s₁ = .error .attributeError ∨ parseColor s₂ = .error .attributeError) ∧
    (gradient R s₁ s₂ n = .error .zeroDivision ↔ n = 0 ∧ (∃ a, parseColor s₁ = .ok a) ∧ ∃ b, parseColor s₂ = .ok b) := by
  have hp : ∀ s : Str, parseColor s ≠ .error .zeroDivision := by
    intro s h
    unfold parseColor at h
    split at h
    · split at h <;> cases h
    · cases h
  unfold gradient
  cases h1 : parseColor s₁ with
  | error e =>
    cases e with
    | attributeError => simp
    | zeroDivision => exact absurd h1 (hp s₁)
  | ok a =>
    cases h2 : parseColor s₂ with
    | error e =>
      cases e with
      | attributeError => simp
      | zeroDivision => exact absurd h2 (hp s₂)
    | ok b =>
      by_cases h : n = 0
      · simp [h]
      · simp [h]

theorem digit_hexVal {c : Char} {n : ℕ} (h : hexVal c = some n) : IsDigit c n := by
  unfold hexVal at h
  have hc : c = Char.ofNat c.toNat := (Char.ofNat_toNat c).symm
  split_ifs at h with h1 h2 h3
  · have a1 : 48 ≤ c.toNat := h1.1
    have a2 : c.toNat ≤ 57 := h1.2
    cases h
    generalize c.toNat = m at *
    subst hc
    interval_cases m <;> exact ⟨by decide, Or.inl (by decide)⟩
  · have a1 : 97 ≤ c.toNat := h2.1
    have a2 : c.toNat ≤ 102 := h2.2
    cases h
    generalize c.toNat = m at *
    subst hc
    interval_cases m <;> exact ⟨by decide, Or.inl (by decide)⟩
  · have a1 : 65 ≤ c.toNat := h3.1
    have a2 : c.toNat ≤ 70 := h3.2
    cases h
    generalize c.toNat = m at *
    subst hc
    interval_cases m <;> exact ⟨by decide, Or.inr (by decide)⟩

/-- A text is accepted exactly if it begins with `#` and six digits. -/
theorem parseColor_ok (s : Str) : (∃ c, parseColor s = .ok c) ↔
    ∃ (ds : List Char) (vs : List ℕ) (rest : Str), s = '#' :: ds ++ rest ∧ ds.length = 6 ∧ List.Forall₂ IsDigit ds vs := by
  have hpair : ∀ {x y : Char} {v : ℕ}, pairVal x y = some v → ∃ a b, hexVal x = some a ∧ hexVal y = some b := by
    intro x y v h
    unfold pairVal at h
    cases hx : hexVal x with
    | none => rw [hx] at h; cases h
    | some a =>
      cases hy : hexVal y with
      | none => rw [hx, hy] at h; cases h
      | some b => exact ⟨a, b, rfl, rfl⟩
  constructor
  · rintro ⟨c, h⟩
    unfold parseColor at h
    split at h
    · rename_i a b c d e f s
      split at h
      · rename_i r g bb h1 h2 h3
        obtain ⟨v1, v2, q1, q2⟩ := hpair h1
        obtain ⟨v3, v4, q3, q4⟩ := hpair h2
        obtain ⟨v5, v6, q5, q6⟩ := hpair h3
        exact ⟨[a, b, c, d, e, f], [v1, v2, v3, v4, v5, v6], s, rfl, rfl, .cons (digit_hexVal q1) (.cons (digit_hexVal q2)
          (.cons (digit_hexVal q3) (.cons (digit_hexVal q4) (.cons (digit_hexVal q5) (.cons (digit_hexVal q6) .nil)))))⟩
      · cases h
    · cases h
  · rintro ⟨ds, vs, rest, rfl, hl, hd⟩
    match ds, hl with
    | [a, b, c, d, e, f], _ =>
      cases hd with
      | cons h1 hd => cases hd with
        | cons h2 hd => cases hd with
          | cons h3 hd => cases hd with
            | cons h4 hd => cases hd with
              | cons h5 hd => cases hd with
                | cons h6 hd =>
                  simp only [List.cons_append, List.nil_append, parseColor, pairVal, hexVal_digit h1, hexVal_digit h2, hexVal_digit h3,
                    hexVal_digit h4, hexVal_digit h5, hexVal_digit h6]
                  exact ⟨_, rfl⟩

/-- The hypotheses are met, for digits in both cases. -/
theorem gradient_example : Denotes ['#', 'F', 'F', 'F', 'F', 'F', 'F', '3', '3'] [255, 255, 255, 51] ∧
    Denotes ['#', '1', 'F', '7', '8', 'b', '4', 'a', 'a'] [31, 120, 180, 170] := by
  constructor
  · refine ⟨_, rfl, ?_⟩
    simp only [List.flatMap_cons, List.flatMap_nil, List.append_nil, List.cons_append, List.nil_append]
    refine .cons ⟨by decide, ?_⟩ (.cons ⟨by decide, ?_⟩ (.cons ⟨by decide, ?_⟩ (.cons ⟨by decide, ?_⟩ (.cons ⟨by decide, ?_⟩
      (.cons ⟨by decide, ?_⟩ (.cons ⟨by decide, ?_⟩ (.cons ⟨by decide, ?_⟩ .nil)))))))
    all_goals decide
  · refine ⟨_, rfl, ?_⟩
    simp only [List.flatMap_cons, List.flatMap_nil, List.append_nil, List.cons_append, List.nil_append]
    refine .cons ⟨by decide, ?_⟩ (.cons ⟨by decide, ?_⟩ (.cons ⟨by decide, ?_⟩ (.cons ⟨by decide, ?_⟩ (.cons ⟨by decide, ?_⟩
      (.cons ⟨by decide, ?_⟩ (.cons ⟨by decide, ?_⟩ (.cons ⟨by decide, ?_⟩ .nil)))))))
    all_goals decide

end Verif.Plots
