import Verif.Plots.Color

/-!
C68: colour gradients.
-/

namespace Verif.Plots

open Verif.Str Verif.Float

/-! ### Reading and writing colours -/

theorem hexVal_digit {c : Char} {n : ℕ} (h : IsDigit c n) : hexVal c = some n := by
  obtain ⟨hn, h | h⟩ := h <;> subst h <;> interval_cases n <;> decide

theorem pairVal_digits {x y : Char} {v : ℕ} (hx : IsDigit x (v / 16)) (hy : IsDigit y (v % 16)) : pairVal x y = some v := by
  unfold pairVal
  rw [hexVal_digit hx, hexVal_digit hy]
  simp only [Option.some.injEq]
  omega

theorem denotes_four {s : Str} {c : List ℕ} (h : Denotes s c) (hl : c.length = 4) :
    parseColor s = .ok c ∧ ∀ v ∈ c, v < 256 := by
  obtain ⟨ds, rfl, hd⟩ := h
  match c, hl with
  | [r, g, b, a], _ =>
    simp only [List.flatMap_cons, List.flatMap_nil, List.append_nil, List.cons_append, List.nil_append] at hd
    cases hd with
    | cons h1 hd => cases hd with
      | cons h2 hd => cases hd with
        | cons h3 hd => cases hd with
          | cons h4 hd => cases hd with
            | cons h5 hd => cases hd with
              | cons h6 hd => cases hd with
                | cons h7 hd => cases hd with
                  | cons h8 hd =>
                    cases hd
                    constructor
                    · simp only [parseColor, lastPair, pairVal_digits h1 h2, pairVal_digits h3 h4, pairVal_digits h5 h6,
                        pairVal_digits h7 h8, Option.getD_some, Option.getD_none]
                    · intro v hv
                      simp only [List.mem_cons, List.not_mem_nil, or_false] at hv
                      have q1 := h1.1; have q2 := h3.1; have q3 := h5.1; have q4 := h7.1
                      rcases hv with rfl | rfl | rfl | rfl <;> omega

/-- A colour without transparency is read as one that is fully transparent. -/
theorem denotes_three {s : Str} {c : List ℕ} (h : Denotes s c) (hl : c.length = 3) : parseColor s = .ok (c ++ [0]) := by
  obtain ⟨ds, rfl, hd⟩ := h
  match c, hl with
  | [r, g, b], _ =>
    simp only [List.flatMap_cons, List.flatMap_nil, List.append_nil, List.cons_append, List.nil_append] at hd
    cases hd with
    | cons h1 hd => cases hd with
      | cons h2 hd => cases hd with
        | cons h3 hd => cases hd with
          | cons h4 hd => cases hd with
            | cons h5 hd => cases hd with
              | cons h6 hd =>
                cases hd
                simp only [parseColor, lastPair, pairVal_digits h1 h2, pairVal_digits h3 h4, pairVal_digits h5 h6, Option.getD_none]
                rfl

theorem lastPair_digits {cs : List ℕ} {ds : Str} (h : List.Forall₂ IsDigit ds (cs.flatMap fun v => [v / 16, v % 16])) :
    lastPair ds = cs.getLast? := by
  induction cs generalizing ds with
  | nil =>
    cases h
    rfl
  | cons v cs ih =>
    simp only [List.flatMap_cons, List.cons_append, List.nil_append] at h
    cases h with
    | cons h1 h => cases h with
      | cons h2 h =>
        simp only [lastPair, pairVal_digits h1 h2, ih h]
        cases cs with
        | nil => rfl
        | cons w cs =>
          rw [List.getLast?_cons_cons]
          simp [List.getLast?_cons]

/-- C68.  Of the digits after the first six, the last two give the transparency; the others are ignored. -/
theorem denotes_more {s : Str} {r g b : ℕ} {cs : List ℕ} (h : Denotes s (r :: g :: b :: cs)) :
    parseColor s = .ok [r, g, b, cs.getLast?.getD 0] := by
  obtain ⟨ds, rfl, hd⟩ := h
  simp only [List.flatMap_cons, List.cons_append, List.nil_append] at hd
  cases hd with
  | cons h1 hd => cases hd with
    | cons h2 hd => cases hd with
      | cons h3 hd => cases hd with
        | cons h4 hd => cases hd with
          | cons h5 hd => cases hd with
            | cons h6 hd =>
              simp only [parseColor, pairVal_digits h1 h2, pairVal_digits h3 h4, pairVal_digits h5 h6, lastPair_digits hd]

theorem formatHex_byte : ∀ v : ℕ, v < 256 → formatHex v = [hexDigit (v / 16), hexDigit (v % 16)] := by decide +kernel

theorem natStr_digit_char : ∀ v : ℕ, v < 10 → natStr v = [hexDigit v] := by decide +kernel

/-- The colours of a gradient. -/
def gradientColors (R : ℚ → ℚ) (a b : List ℕ) (n : ℕ) : List (List ℕ) :=
  (List.range (n + 1)).map fun i => (a.zip b).map fun p => (channel R p.1 p.2 n i).toNat

theorem gradient_ok (R : ℚ → ℚ) {s₁ s₂ : Str} {a b : List ℕ} (ha : parseColor s₁ = .ok a) (hb : parseColor s₂ = .ok b) {n : ℕ} (hn : 1 ≤ n)
    (hc : ∀ p ∈ a.zip b, ∀ i ≤ n, 0 ≤ channel R p.1 p.2 n i ∧ channel R p.1 p.2 n i < 256) :
    gradient R s₁ s₂ n = .ok (gradientText (gradientColors R a b n) (fixed2 (R (1 / ((n : ℚ) + 1))))) := by
  unfold gradient gradientText gradientColors
  rw [ha, hb]
  simp only
  rw [if_neg (by omega), show ((n : ℤ) + 1).toNat = n + 1 by omega, List.map_map, List.map_map]
  refine congrArg (fun l => Except.ok (List.intercalate [':'] l)) (List.map_congr_left fun i hi => ?_)
  have hi' : i ≤ n := by rw [List.mem_range] at hi; omega
  simp only [Function.comp, colorText, List.flatMap_def, List.map_map]
  rw [List.map_congr_left (g := (fun v => [hexDigit (v / 16), hexDigit (v % 16)]) ∘ fun p => (channel R p.1 p.2 n i).toNat) ?_]
  · push_cast; rfl
  · intro p hp
    obtain ⟨h1, h2⟩ := hc p hp i hi'
    simp only [Function.comp]
    rw [← formatHex_byte _ (by omega), Int.toNat_of_nonneg h1]

/-- The share of a colour. -/
theorem fixed2_share {n : ℕ} (hn : 1 ≤ n) {q : ℚ} (hq : |q - 1 / (n + 1)| ≤ 1 / 2 ^ 50) : IsShare (n + 1) (fixed2 q) := by
  have hn1 : (1 : ℚ) ≤ n := by exact_mod_cast hn
  have h1 : (1 : ℚ) / (n + 1) ≤ 1 / 2 := one_div_le_one_div_of_le (by norm_num) (by linarith)
  have h0 : (0 : ℚ) < 1 / (n + 1) := by positivity
  have hr := roundEven_near (q * 100)
  rw [abs_le] at hq hr
  have hm0 : 0 ≤ roundEven (q * 100) := by
    by_contra hlt
    push Not at hlt
    have : (roundEven (q * 100) : ℚ) ≤ -1 := by exact_mod_cast (show roundEven (q * 100) ≤ -1 by omega)
    have := hr.1
    linarith [hq.1, show (1 : ℚ) / 2 ^ 50 ≤ 1 / 1000 by norm_num]
  have hm1 : roundEven (q * 100) < 100 := by
    by_contra hlt
    push Not at hlt
    have : (100 : ℚ) ≤ roundEven (q * 100) := by exact_mod_cast hlt
    have := hr.2
    linarith [hq.2, show (1 : ℚ) / 2 ^ 50 ≤ 1 / 1000 by norm_num]
  refine ⟨(roundEven (q * 100)).toNat, by omega, ?_, ?_⟩
  · unfold fixed2
    simp only
    rw [Nat.div_eq_of_lt (show (roundEven (q * 100)).toNat < 100 by omega), Nat.mod_eq_of_lt (show (roundEven (q * 100)).toNat < 100 by omega),
      natStr_digit_char 0 (by omega), natStr_digit_char _ (show (roundEven (q * 100)).toNat / 10 < 10 by omega),
      natStr_digit_char _ (Nat.mod_lt _ (by omega))]
    rfl
  · have e : (((roundEven (q * 100)).toNat : ℕ) : ℚ) = (roundEven (q * 100) : ℚ) := by
      have := Int.toNat_of_nonneg hm0
      exact_mod_cast congrArg (Int.cast : ℤ → ℚ) this
    rw [e]
    push_cast
    norm_num at hq ⊢
    rw [abs_le]
    constructor <;> linarith [hr.1, hr.2, hq.1, hq.2]

/-! ### Channels -/

theorem truncate_spec {x : ℚ} {lo hi : ℤ} {ε : ℚ} (he : ε < 1) (hlo : 0 ≤ lo) (h1 : (lo : ℚ) - ε ≤ x) (h2 : x ≤ hi + ε) :
    0 ≤ truncate x ∧ lo - 1 ≤ truncate x ∧ truncate x ≤ max hi 0 ∧ (truncate x : ℚ) ≤ max x 0 ∧ x - 1 < truncate x ∧
      (0 ≤ ε → ε = 0 → lo ≤ truncate x) := by
  have hlo' : (0 : ℚ) ≤ lo := by exact_mod_cast hlo
  unfold truncate
  split_ifs with h
  · have hc : ⌈x⌉ = 0 := by
      rw [Int.ceil_eq_iff]
      push_cast
      constructor <;> linarith
    rw [hc]
    have hlo0 : lo = 0 := by
      have : (lo : ℚ) < 1 := by linarith
      have : lo < 1 := by exact_mod_cast this
      omega
    refine ⟨le_rfl, by omega, by omega, by push_cast; exact le_max_right _ _, by push_cast; linarith, fun _ _ => by omega⟩
  · push Not at h
    have f1 := Int.floor_le x
    have f2 := Int.lt_floor_add_one x
    have g0 : 0 ≤ ⌊x⌋ := Int.floor_nonneg.2 h
    refine ⟨g0, ?_, ?_, le_trans f1 (le_max_left _ _), by linarith, ?_⟩
    · have : (lo : ℚ) < ⌊x⌋ + 2 := by linarith
      have : lo < ⌊x⌋ + 2 := by exact_mod_cast this
      omega
    · have : (⌊x⌋ : ℚ) < hi + 1 := by linarith
      have : ⌊x⌋ < hi + 1 := by exact_mod_cast this
      omega
    · intro _ h0
      exact Int.le_floor.2 (by linarith)

theorem target_between {f t n i : ℕ} (hn : 1 ≤ n) (hi : i ≤ n) :
    ((min f t : ℕ) : ℚ) ≤ f + ((t : ℚ) - f) / n * i ∧ f + ((t : ℚ) - f) / n * i ≤ ((max f t : ℕ) : ℚ) := by
  have hn' : (0 : ℚ) < n := by exact_mod_cast hn
  have hi' : (i : ℚ) ≤ n := by exact_mod_cast hi
  have e : (f : ℚ) + ((t : ℚ) - f) / n * i = (f * (n - i) + t * i) / n := by field_simp; ring
  rw [e, le_div_iff₀ hn', div_le_iff₀ hn']
  have hmf : ((min f t : ℕ) : ℚ) ≤ f := by exact_mod_cast min_le_left f t
  have hmt : ((min f t : ℕ) : ℚ) ≤ t := by exact_mod_cast min_le_right f t
  have hMf : (f : ℚ) ≤ ((max f t : ℕ) : ℚ) := by exact_mod_cast le_max_left f t
  have hMt : (t : ℚ) ≤ ((max f t : ℕ) : ℚ) := by exact_mod_cast le_max_right f t
  have hi0 : (0 : ℚ) ≤ i := by positivity
  have hni : (0 : ℚ) ≤ n - i := by linarith
  constructor
  · have a := mul_le_mul_of_nonneg_right hmf hni
    have b := mul_le_mul_of_nonneg_right hmt hi0
    nlinarith
  · have a := mul_le_mul_of_nonneg_right hMf hni
    have b := mul_le_mul_of_nonneg_right hMt hi0
    nlinarith

/-- A channel computed without rounding errors. -/
theorem channel_exact {R : ℚ → ℚ} {f t n i : ℕ} (hn : 1 ≤ n) (hi : i ≤ n)
    (hR : R (f + R (R (((t : ℚ) - f) / n) * R i)) = f + ((t : ℚ) - f) / n * i) :
    ∃ v : ℕ, channel R f t n i = v ∧ Between f t v ∧ (i = 0 → v = f) ∧ (i = n → v = t) ∧
      (v : ℚ) ≤ f + ((t : ℚ) - f) / n * i ∧ f + ((t : ℚ) - f) / n * i - 1 < v := by
  obtain ⟨b1, b2⟩ := target_between (f := f) (t := t) hn hi
  have hn' : (n : ℚ) ≠ 0 := by
    have : (n : ℕ) ≠ 0 := by omega
    exact_mod_cast this
  have hx0 : (0 : ℚ) ≤ f + ((t : ℚ) - f) / n * i := le_trans (by positivity) b1
  obtain ⟨h1, -, h3, h4, h5, h6⟩ := truncate_spec (x := f + ((t : ℚ) - f) / n * i) (lo := ((min f t : ℕ) : ℤ)) (hi := ((max f t : ℕ) : ℤ))
    (ε := 0) (by norm_num) (by positivity) (by push_cast at b1 ⊢; linarith) (by push_cast at b2 ⊢; linarith)
  have hch : channel R f t n i = truncate (f + ((t : ℚ) - f) / n * i) := by
    unfold channel
    push_cast
    rw [hR]
  obtain ⟨v, hv⟩ := Int.eq_ofNat_of_zero_le h1
  have h6' := h6 le_rfl rfl
  rw [hv] at h3 h4 h5 h6'
  rw [max_eq_left hx0] at h4
  refine ⟨v, by rw [hch, hv], ⟨?_, ?_⟩, ?_, ?_, by exact_mod_cast h4, by exact_mod_cast h5⟩
  · exact_mod_cast h6'
  · have : (v : ℤ) ≤ max ((max f t : ℕ) : ℤ) 0 := h3
    omega
  · intro h0
    have : truncate (f + ((t : ℚ) - f) / n * i) = f := by
      rw [h0]
      unfold truncate
      push_cast
      rw [mul_zero, add_zero, if_neg (by push Not; positivity), Int.floor_natCast]
    rw [this] at hv
    exact_mod_cast hv.symm
  · intro h0
    have : truncate (f + ((t : ℚ) - f) / n * i) = t := by
      rw [h0, div_mul_cancel₀ _ hn', add_sub_cancel]
      unfold truncate
      rw [if_neg (by push Not; positivity), Int.floor_natCast]
    rw [this] at hv
    exact_mod_cast hv.symm

theorem rnd_rel (q : ℚ) : ∃ δ, |δ| ≤ 1 / 2 ^ 53 ∧ rnd q = q * (1 + δ) := by
  by_cases h : q = 0
  · exact ⟨0, by norm_num, by rw [h, rnd_zero]; ring⟩
  · refine ⟨(rnd q - q) / q, ?_, by field_simp; ring⟩
    rw [abs_div, div_le_iff₀ (abs_pos.2 h)]
    refine le_trans (rnd_near q) ?_
    rw [div_eq_mul_one_div, mul_comm]

theorem mul_err (a b : ℚ) : |(1 + a) * (1 + b) - 1| ≤ |a| + |b| + |a| * |b| := by
  have : (1 + a) * (1 + b) - 1 = a + b + a * b := by ring
  rw [this, ← abs_mul]
  exact le_trans (abs_add_le _ _) (by linarith [abs_add_le a b])

/-- The error of a channel in double precision, before truncation. -/
theorem channel_error {f t n i : ℕ} (hf : f < 256) (ht : t < 256) (hn : 1 ≤ n) (hi : i ≤ n) :
    |rnd (f + rnd (rnd (((t : ℚ) - f) / n) * rnd i)) - (f + ((t : ℚ) - f) / n * i)| ≤ 1 / 2 ^ 42 := by
  obtain ⟨δ₁, e1, r1⟩ := rnd_rel (((t : ℚ) - f) / n)
  obtain ⟨δ₂, e2, r2⟩ := rnd_rel (i : ℚ)
  obtain ⟨δ₃, e3, r3⟩ := rnd_rel (rnd (((t : ℚ) - f) / n) * rnd i)
  obtain ⟨δ₄, e4, r4⟩ := rnd_rel (f + rnd (rnd (((t : ℚ) - f) / n) * rnd i))
  rw [r4, r3, r1, r2]
  obtain ⟨b1, b2⟩ := target_between (f := f) (t := t) hn hi
  have hf' : (f : ℚ) ≤ 255 := by exact_mod_cast (by omega : f ≤ 255)
  have ht' : (t : ℚ) ≤ 255 := by exact_mod_cast (by omega : t ≤ 255)
  have hf0 : (0 : ℚ) ≤ f := by positivity
  have hM : ((max f t : ℕ) : ℚ) ≤ 255 := by exact_mod_cast (by omega : max f t ≤ 255)
  have hm0 : (0 : ℚ) ≤ ((min f t : ℕ) : ℚ) := by positivity
  set x := ((t : ℚ) - f) / n * i with hx
  have hxa : |x| ≤ 255 := by rw [abs_le]; constructor <;> linarith
  have hη1 := mul_err δ₁ δ₂
  have hη2 := mul_err ((1 + δ₁) * (1 + δ₂) - 1) δ₃
  set η := (1 + ((1 + δ₁) * (1 + δ₂) - 1)) * (1 + δ₃) - 1 with hη
  have u0 : (0 : ℚ) < 1 / 2 ^ 53 := by norm_num
  have hA : |(1 + δ₁) * (1 + δ₂) - 1| ≤ 9 / 4 / 2 ^ 53 := by
    have := mul_le_mul e1 e2 (abs_nonneg _) u0.le
    norm_num at this e1 e2 ⊢
    linarith
  have hB : |η| ≤ 4 / 2 ^ 53 := by
    have := mul_le_mul hA e3 (abs_nonneg _) (by norm_num)
    norm_num at this hA e3 ⊢
    linarith
  have e : ((f : ℚ) + ((t : ℚ) - f) / n * (1 + δ₁) * (i * (1 + δ₂)) * (1 + δ₃)) * (1 + δ₄) - (f + x) = x * η + (f + x + x * η) * δ₄ := by
    rw [hη, hx]; ring
  rw [e]
  have hxη : |x * η| ≤ 1020 / 2 ^ 53 := by
    rw [abs_mul]
    have := mul_le_mul hxa hB (abs_nonneg _) (by norm_num)
    norm_num at this ⊢
    linarith
  have hs : |f + x + x * η| ≤ 512 := by
    refine le_trans (abs_add_le _ _) ?_
    have : |(f : ℚ) + x| ≤ 255 := by rw [abs_le]; constructor <;> linarith
    linarith [show (1020 : ℚ) / 2 ^ 53 ≤ 1 by norm_num]
  have hl : |(f + x + x * η) * δ₄| ≤ 512 / 2 ^ 53 := by
    rw [abs_mul]
    have := mul_le_mul hs e4 (abs_nonneg _) (by norm_num)
    norm_num at this ⊢
    linarith
  refine le_trans (abs_add_le _ _) ?_
  norm_num at hxη hl ⊢
  linarith

/-- A channel in double precision. -/
theorem channel_double {f t n i : ℕ} (hf : f < 256) (ht : t < 256) (hn : 1 ≤ n) (hi : i ≤ n) :
    ∃ v : ℕ, channel rnd f t n i = v ∧ min f t ≤ v + 1 ∧ v ≤ max f t ∧ (i = 0 → v = f) ∧
      (v : ℚ) ≤ f + ((t : ℚ) - f) / n * i + 1 / 2 ^ 42 ∧ f + ((t : ℚ) - f) / n * i - 1 - 1 / 2 ^ 42 < v := by
  have herr := channel_error hf ht hn hi
  obtain ⟨b1, b2⟩ := target_between (f := f) (t := t) hn hi
  rw [abs_le] at herr
  have hx0 : (0 : ℚ) ≤ f + ((t : ℚ) - f) / n * i := le_trans (by positivity) b1
  obtain ⟨h1, h2, h3, h4, h5, -⟩ := truncate_spec (x := rnd (f + rnd (rnd (((t : ℚ) - f) / n) * rnd i))) (lo := ((min f t : ℕ) : ℤ))
    (hi := ((max f t : ℕ) : ℤ)) (ε := 1 / 2 ^ 42) (by norm_num) (by positivity) (by push_cast at b1 ⊢; linarith)
    (by push_cast at b2 ⊢; linarith)
  have hch : channel rnd f t n i = truncate (rnd (f + rnd (rnd (((t : ℚ) - f) / n) * rnd i))) := by
    unfold channel
    push_cast
    rfl
  obtain ⟨v, hv⟩ := Int.eq_ofNat_of_zero_le h1
  rw [hv] at h2 h3 h4 h5
  refine ⟨v, by rw [hch, hv], ?_, ?_, ?_, ?_, ?_⟩
  · have : ((min f t : ℕ) : ℤ) - 1 ≤ (v : ℤ) := h2
    omega
  · have : (v : ℤ) ≤ max ((max f t : ℕ) : ℤ) 0 := h3
    omega
  · intro h0
    have : truncate (rnd (f + rnd (rnd (((t : ℚ) - f) / n) * rnd i))) = f := by
      rw [h0]
      push_cast
      rw [rnd_zero, mul_zero, rnd_zero, add_zero]
      have hr : rnd (f : ℚ) = f := by
        have := rnd_int (n := (f : ℤ)) (by rw [abs_of_nonneg (by positivity)]; omega)
        exact_mod_cast this
      rw [hr]
      unfold truncate
      rw [if_neg (by push Not; positivity), Int.floor_natCast]
    rw [this] at hv
    exact_mod_cast hv.symm
  · have h4' : (v : ℚ) ≤ max (rnd (f + rnd (rnd (((t : ℚ) - f) / n) * rnd i))) 0 := by exact_mod_cast h4
    refine le_trans h4' (max_le (by linarith) ?_)
    have : (0 : ℚ) < 1 / 2 ^ 42 := by norm_num
    linarith
  · have h5' : rnd (f + rnd (rnd (((t : ℚ) - f) / n) * rnd i)) - 1 < (v : ℚ) := by exact_mod_cast h5
    linarith

end Verif.Plots
