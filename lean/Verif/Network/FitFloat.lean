import Verif.Network.Counts
import Verif.BBN.RoundingProps
import Verif.Float.Sum

/-!
# C111: fitting and predicting in double precision

`fit_cpds` and `predict` run on Python floats: the numbers of the model are rational numbers with rounded operations.  The tables are
compared with the frequencies in exact arithmetic, and the predictions with the numbers of observations.
-/

namespace Verif.Network

open Verif.BBN (Fl Rounds Close rounds_double)
open Verif.Float (rnd rnd_mono rnd_nonneg rnd_near rnd_int rnd_zero IsDouble rnd_rnd isDouble_one)
open Function

/-- Conversion of an integer to a float rounds. -/
instance {rd : ℚ → ℚ} : NatCast (Fl rd) := ⟨fun n => ⟨rd n⟩⟩

instance {rd : ℚ → ℚ} : LinearOrder (Fl rd) := LinearOrder.lift' Fl.val fun _ _ => Fl.ext

/-- Python floats, without overflow and underflow. -/
abbrev Double := Fl rnd

/-- Arguments with exact numbers in place of floats. -/
def FitArgs.exact (a : FitArgs Double) : FitArgs ℚ := ⟨a.method, a.prior, a.ess.map Fl.val⟩

section
variable {S : Type} {u : ℚ} {rd : ℚ → ℚ}

theorem cast_val (n : ℕ) : ((n : Fl rd)).val = rd n := rfl

theorem rnd_nat {n : ℕ} (h : n < 2 ^ 53) : rnd n = n := by
  have := rnd_int (n := (n : ℤ)) (by rw [abs_of_nonneg (by positivity)]; exact_mod_cast h)
  exact_mod_cast this

theorem sum_cons_val (x : Fl rd) (l : List (Fl rd)) : ((x :: l).sum).val = rd (x.val + l.sum.val) := rfl

/-! ### Exact columns -/

theorem sum_val_nat {l : List S} {w : S → Double} {c : S → ℕ} (hw : ∀ s ∈ l, (w s).val = c s) (h : (l.map c).sum < 2 ^ 53) :
    ((l.map w).sum).val = ((l.map c).sum : ℕ) := by
  induction l with
  | nil => simp [Fl.zero_val]
  | cons s l ih =>
    rw [List.map_cons, List.sum_cons] at h
    rw [List.map_cons, sum_cons_val, ih (fun t ht => hw t (by simp [ht])) (by omega), hw s (by simp), List.map_cons, List.sum_cons,
      ← Nat.cast_add, rnd_nat h]

/-- The counts plus pseudo counts of an estimator with whole pseudo counts. -/
def wholeWeight (fill : Bool) (ks : List S) (N : S → ℕ) (s : S) : ℕ :=
  if fill then (if (ks.map N).sum = 0 then 1 else N s) else N s + 1

theorem all_zero_iff {ks : List S} {N : S → ℕ} : (∀ t ∈ ks, N t = 0) ↔ (ks.map N).sum = 0 := by
  rw [List.sum_eq_zero_iff]
  simp

theorem wholeWeight_sum_le (fill : Bool) (ks : List S) (N : S → ℕ) :
    (ks.map (wholeWeight fill ks N)).sum ≤ (ks.map N).sum + ks.length := by
  unfold wholeWeight
  cases fill with
  | false => simp only [Bool.false_eq_true, if_false, List.sum_map_add]; simp
  | true =>
    simp only [if_true]
    by_cases h : (ks.map N).sum = 0
    · simp [h]
    · simp only [h, if_false]; exact Nat.le_add_right _ _

theorem weightOf_whole {K : Type} [Zero K] [One K] [Add K] [Div K] [NatCast K] (fill : Bool) (ks : List S) (N : S → ℕ) (s : S) :
    weightOf (if fill then Pseudo.fillEmpty else Pseudo.add (1 : K)) ks N s =
      if fill then (if (ks.map N).sum = 0 then 1 else (N s : K)) else (N s : K) + 1 := by
  cases fill with
  | false => rfl
  | true =>
    simp only [if_true, weightOf]
    by_cases h : ∀ t ∈ ks, N t = 0
    · rw [if_pos h, if_pos (all_zero_iff.1 h)]
    · rw [if_neg h, if_neg (fun h' => h (all_zero_iff.2 h'))]

theorem rnd_one : rnd 1 = 1 := isDouble_one

theorem weightOf_whole_double {fill : Bool} {ks : List S} {N : S → ℕ} (h : (ks.map N).sum + ks.length < 2 ^ 53) {s : S} (hs : s ∈ ks) :
    (weightOf (if fill then Pseudo.fillEmpty else Pseudo.add (1 : Double)) ks N s).val = wholeWeight fill ks N s := by
  have hle : N s ≤ (ks.map N).sum := List.single_le_sum (by simp) _ (List.mem_map_of_mem hs)
  have hlen : 0 < ks.length := List.length_pos_of_mem hs
  rw [weightOf_whole]
  unfold wholeWeight
  cases fill with
  | false =>
    simp only [Bool.false_eq_true, if_false, Fl.add_val, cast_val, Fl.one_val]
    rw [rnd_nat (by omega)]
    exact_mod_cast rnd_nat (n := N s + 1) (by omega)
  | true =>
    simp only [if_true]
    by_cases h0 : (ks.map N).sum = 0
    · simp [h0, Fl.one_val]
    · simp only [h0, if_false, cast_val]
      exact rnd_nat (by omega)

theorem weightOf_whole_rat (fill : Bool) (ks : List S) (N : S → ℕ) (s : S) :
    weightOf (if fill then Pseudo.fillEmpty else Pseudo.add (1 : ℚ)) ks N s = (wholeWeight fill ks N s : ℚ) := by
  rw [weightOf_whole]
  unfold wholeWeight
  cases fill with
  | false => simp
  | true => by_cases h0 : (ks.map N).sum = 0 <;> simp [h0]

/-- With whole pseudo counts, the float is the correctly rounded exact value. -/
theorem probOf_whole {fill : Bool} {ks : List S} {N : S → ℕ} (h : (ks.map N).sum + ks.length < 2 ^ 53) {s : S} (hs : s ∈ ks) :
    (probOf (if fill then Pseudo.fillEmpty else Pseudo.add (1 : Double)) ks N s).val =
      rnd (probOf (if fill then Pseudo.fillEmpty else Pseudo.add (1 : ℚ)) ks N s) := by
  unfold probOf
  rw [Fl.div_val, weightOf_whole_double h hs, sum_val_nat (fun t ht => weightOf_whole_double h ht)
    (lt_of_le_of_lt (wholeWeight_sum_le fill ks N) h), weightOf_whole_rat]
  congr 2
  rw [Nat.cast_list_sum, List.map_map]
  congr 1
  apply List.map_congr_left
  intro t _
  rw [weightOf_whole_rat]
  rfl

/-! ### All columns -/

/-- The pseudo counts of the two runs. -/
inductive PseudoClose (u : ℚ) (rd : ℚ → ℚ) : Pseudo (Fl rd) → Pseudo ℚ → Prop
  | fill : PseudoClose u rd .fillEmpty .fillEmpty
  | add {a : Fl rd} {b : ℚ} : Close u 2 a.val b → PseudoClose u rd (.add a) (.add b)

theorem weightOf_close (h : Rounds u rd) {p : Pseudo (Fl rd)} {q : Pseudo ℚ} (hpq : PseudoClose u rd p q) (ks : List S) (N : S → ℕ)
    (s : S) : Close u 3 (weightOf p ks N s).val (weightOf q ks N s) := by
  have hn : Close u 1 (rd (N s)) (N s) := (Close.refl (u := u) (Nat.cast_nonneg (N s))).round h
  cases hpq with
  | fill =>
    unfold weightOf
    simp only
    split
    · rw [Fl.one_val]
      exact (Close.refl (u := u) zero_le_one).mono h (by omega)
    · exact hn.mono h (by omega)
  | add c => exact (hn.mono h (by omega)).add h c

theorem sum_close (h : Rounds u rd) {l : List S} {w : S → Fl rd} {w' : S → ℚ} {n : ℕ} (hw : ∀ s ∈ l, Close u n (w s).val (w' s)) :
    Close u (n + l.length) ((l.map w).sum).val (l.map w').sum := by
  induction l with
  | nil => exact (Close.refl (u := u) le_rfl).mono h (Nat.zero_le _)
  | cons s l ih =>
    rw [List.map_cons, sum_cons_val, List.map_cons, List.sum_cons, List.length_cons, ← add_assoc]
    exact ((hw s (by simp)).mono h (by omega)).add h (ih fun t ht => hw t (by simp [ht]))

theorem probOf_close (h : Rounds u rd) {p : Pseudo (Fl rd)} {q : Pseudo ℚ} (hpq : PseudoClose u rd p q) (ks : List S) (N : S → ℕ)
    (s : S) : Close u (ks.length + 7) (probOf p ks N s).val (probOf q ks N s) := by
  unfold probOf
  rw [Fl.div_val]
  exact ((weightOf_close h hpq ks N s).div h (sum_close h fun t _ => weightOf_close h hpq ks N t)).mono h (by omega)

theorem pseudoOf_close {V : Type} (h : Rounds u rd) {names : V → List S} {a : FitArgs (Fl rd)} {ps : V → List V → Pseudo (Fl rd)}
    (hess : ∀ n, a.ess = some n → 0 ≤ n.val) (hps : pseudoOf names a = .ok ps) :
    ∃ qs, pseudoOf names (⟨a.method, a.prior, a.ess.map Fl.val⟩ : FitArgs ℚ) = .ok qs ∧
      ∀ v par, PseudoClose u rd (ps v par) (qs v par) := by
  unfold pseudoOf at hps ⊢
  simp only
  split at hps
  · rename_i h1
    cases hps
    rw [if_pos h1]
    exact ⟨_, rfl, fun _ _ => .fill⟩
  · rename_i h1
    rw [if_neg h1]
    split at hps
    · rename_i h2
      rw [if_pos h2]
      split at hps
      · rename_i h3
        cases hps
        rw [if_pos h3]
        exact ⟨_, rfl, fun _ _ => .add ((Close.refl (u := u) zero_le_one).mono h (by omega))⟩
      · rename_i h3
        rw [if_neg h3]
        split at hps
        · rename_i h4
          rw [if_pos h4]
          cases he : a.ess with
          | none => rw [he] at hps; simp at hps
          | some n =>
            rw [he] at hps
            cases hps
            refine ⟨_, rfl, fun v par => .add ?_⟩
            rw [Fl.div_val, cast_val]
            exact (Close.refl (u := u) (hess n he)).div h ((Close.refl (u := u) (Nat.cast_nonneg _)).round h)
        · simp at hps
    · simp at hps

/-! ### Bounds and order -/

theorem weightOf_isDouble (p : Pseudo Double) (ks : List S) (N : S → ℕ) (s : S) : IsDouble (weightOf p ks N s).val := by
  unfold weightOf
  cases p with
  | fillEmpty =>
    simp only
    split
    · exact isDouble_one
    · exact rnd_rnd _
  | add a => exact rnd_rnd _

theorem le_sum_val {l : List S} {w : S → Double} (hd : ∀ s, IsDouble (w s).val) (h0 : ∀ s, 0 ≤ (w s).val) :
    0 ≤ ((l.map w).sum).val ∧ IsDouble ((l.map w).sum).val ∧ ∀ s ∈ l, (w s).val ≤ ((l.map w).sum).val := by
  induction l with
  | nil => exact ⟨le_rfl, rnd_zero, by simp⟩
  | cons t l ih =>
    obtain ⟨i1, i2, i3⟩ := ih
    rw [List.map_cons, sum_cons_val]
    refine ⟨rnd_nonneg (add_nonneg (h0 t) i1), rnd_rnd _, ?_⟩
    intro s hs
    have key : ∀ x, IsDouble x → 0 ≤ x → x ≤ (w t).val + ((l.map w).sum).val → x ≤ rnd ((w t).val + ((l.map w).sum).val) := by
      intro x hx hx0 hle
      calc x = rnd x := hx.symm
        _ ≤ _ := rnd_mono hx0 hle
    rcases List.mem_cons.1 hs with rfl | hs
    · exact key _ (hd s) (h0 s) (by linarith)
    · exact key _ (hd s) (h0 s) (by linarith [i3 s hs, h0 t])

/-- Probabilities in floats lie between zero and one. -/
theorem probOf_unit {p : Pseudo Double} {q : Pseudo ℚ} (hpq : PseudoClose (1 / 2 ^ 53) rnd p q) {ks : List S} (N : S → ℕ) {s : S}
    (hs : s ∈ ks) : 0 ≤ (probOf p ks N s).val ∧ (probOf p ks N s).val ≤ 1 := by
  have h0 : ∀ t, 0 ≤ (weightOf p ks N t).val := fun t => (weightOf_close rounds_double hpq ks N t).x_nonneg rounds_double
  obtain ⟨h1, -, h2⟩ := le_sum_val (l := ks) (weightOf_isDouble p ks N) h0
  unfold probOf
  rw [Fl.div_val]
  refine ⟨rnd_nonneg (div_nonneg (h0 s) h1), ?_⟩
  calc rnd _ ≤ rnd 1 := rnd_mono (div_nonneg (h0 s) h1) (div_le_one_of_le₀ (h2 s hs) h1)
    _ = 1 := rnd_one

theorem PseudoClose.lt {p : Pseudo (Fl rd)} {q : Pseudo ℚ} (hpq : PseudoClose u rd p q) {ks : List S} {N : S → ℕ} {s s' : S}
    (hs' : s' ∈ ks) (h : N s < N s') : weightOf q ks N s + 1 ≤ weightOf q ks N s' := by
  have h1 : (N s : ℚ) + 1 ≤ N s' := by exact_mod_cast h
  cases hpq with
  | fill =>
    unfold weightOf
    simp only
    rw [if_neg (fun h0 => by have := h0 s' hs'; omega), if_neg (fun h0 => by have := h0 s' hs'; omega)]
    exact h1
  | add => unfold weightOf; simp only; linarith

/-- Floats are ordered like the numbers of observations, if the numbers are not huge. -/
theorem probOf_le_iff {p : Pseudo Double} {q : Pseudo ℚ} (hpq : PseudoClose (1 / 2 ^ 53) rnd p q) {ks : List S} {N : S → ℕ}
    (hlen : ks.length ≤ 2 ^ 48) (hT : (ks.map (weightOf q ks N)).sum ≤ 2 ^ 48) {s s' : S} (hs : s ∈ ks) (hs' : s' ∈ ks) :
    (probOf p ks N s).val ≤ (probOf p ks N s').val ↔ N s ≤ N s' := by
  have h0' : ∀ t, 0 ≤ weightOf q ks N t := fun t => (weightOf_close rounds_double hpq ks N t).nonneg
  have h0 : ∀ t, 0 ≤ (weightOf p ks N t).val := fun t => (weightOf_close rounds_double hpq ks N t).x_nonneg rounds_double
  obtain ⟨hW0, -, hle⟩ := le_sum_val (l := ks) (weightOf_isDouble p ks N) h0
  have key : ∀ {s s' : S}, s ∈ ks → s' ∈ ks → N s < N s' → (probOf p ks N s).val < (probOf p ks N s').val := by
    intro s s' hs hs' hlt
    have hg := hpq.lt hs' hlt
    have c1 := (weightOf_close rounds_double hpq ks N s).relative rounds_double (by norm_num)
    have c2 := (weightOf_close rounds_double hpq ks N s').relative rounds_double (by norm_num)
    have hW := (sum_close rounds_double (l := ks) fun t _ => weightOf_close rounds_double hpq ks N t).relative rounds_double (by
      have : (ks.length : ℚ) ≤ 2 ^ 48 := by exact_mod_cast hlen
      push_cast
      linarith)
    have hb : ∀ t ∈ ks, weightOf q ks N t ≤ (ks.map (weightOf q ks N)).sum := fun t ht =>
      List.single_le_sum (by simpa using fun t _ => h0' t) _ (List.mem_map_of_mem ht)
    have b1 := hb s hs
    have b2 := hb s' hs'
    have l1 := hle s hs
    have l2 := hle s' hs'
    unfold probOf
    rw [Fl.div_val, Fl.div_val]
    have hs0 := h0 s
    have hs0' := h0' s
    generalize weightOf q ks N s = a at *
    generalize weightOf q ks N s' = b at *
    generalize (weightOf p ks N s).val = a' at *
    generalize (weightOf p ks N s').val = b' at *
    generalize ((ks.map (weightOf p ks N)).sum).val = W at *
    generalize (ks.map (weightOf q ks N)).sum = T at *
    have hlen' : (ks.length : ℚ) ≤ 2 ^ 48 := by exact_mod_cast hlen
    rw [abs_le] at c1 c2 hW
    have hgap : a' + 1 / 2 ≤ b' := by
      have := c1.2
      have := c2.1
      norm_num at *
      linarith
    have hWle : W ≤ 2 ^ 49 := by
      have h1 : 2 * (((3 + ks.length : ℕ) : ℚ) * (1 / 2 ^ 53)) * T ≤ 1 * T := by
        apply mul_le_mul_of_nonneg_right _ (by linarith)
        push_cast
        linarith
      have := hW.2
      linarith
    have hWpos : 0 < W := by linarith
    have q1 := rnd_near (a' / W)
    have q2 := rnd_near (b' / W)
    have ha1 : a' / W ≤ 1 := div_le_one_of_le₀ l1 hW0
    have hb1 : b' / W ≤ 1 := div_le_one_of_le₀ l2 hW0
    have hq : a' / W + 1 / 2 ^ 50 ≤ b' / W := by
      have : 1 / 2 ^ 50 ≤ (1 / 2) / W := by
        rw [div_le_div_iff₀ (by positivity) hWpos]
        linarith
      calc a' / W + 1 / 2 ^ 50 ≤ a' / W + 1 / 2 / W := by linarith
        _ = (a' + 1 / 2) / W := by ring
        _ ≤ b' / W := div_le_div_of_nonneg_right hgap hW0
    rw [abs_of_nonneg (div_nonneg hs0 hW0), abs_le] at q1
    rw [abs_of_nonneg (div_nonneg (by linarith) hW0), abs_le] at q2
    have := q1.2
    have := q2.1
    norm_num at *
    linarith
  constructor
  · intro h
    by_contra hn
    exact absurd h (not_le.2 (key hs' hs (not_le.1 hn)))
  · intro h
    rcases h.lt_or_eq with h | h
    · exact (key hs hs' h).le
    · have : weightOf p ks N s = weightOf p ks N s' := by unfold weightOf; rw [h]
      unfold probOf
      rw [this]

theorem pseudoOf_whole {V K : Type} [Zero K] [One K] [Add K] [Div K] [NatCast K] {names : V → List S} {a : FitArgs K}
    {ps : V → List V → Pseudo K} (hps : pseudoOf names a = .ok ps)
    (hm : a.method = "MaximumLikelihoodEstimator" ∨ a.prior = some "K2") (v : V) (par : List V) :
    ps v par = if decide (a.method = "MaximumLikelihoodEstimator") then Pseudo.fillEmpty else Pseudo.add 1 := by
  unfold pseudoOf at hps
  by_cases h1 : a.method = "MaximumLikelihoodEstimator"
  · rw [if_pos h1] at hps
    cases hps
    simp [h1]
  · rw [if_neg h1] at hps
    split at hps
    · rw [if_pos (hm.resolve_left h1)] at hps
      cases hps
      simp [h1]
    · simp at hps

theorem weight_total_le [LinearOrder S] {V : Type} {names : V → List S} {a : FitArgs ℚ} {qs : V → List V → Pseudo ℚ}
    (hqs : pseudoOf names a = .ok qs) (hess : 0 ≤ a.ess.getD 0) {v : V} {ks : List S} (hk : ks.length = (names v).length)
    (par : List V) (N : S → ℕ) :
    (ks.map (weightOf (qs v par) ks N)).sum ≤ (ks.map N).sum + ks.length + a.ess.getD 0 := by
  by_cases hm : a.method = "MaximumLikelihoodEstimator" ∨ a.prior = some "K2"
  · rw [pseudoOf_whole hqs hm]
    have : (ks.map (weightOf (if decide (a.method = "MaximumLikelihoodEstimator") then Pseudo.fillEmpty else Pseudo.add (1 : ℚ)) ks N)).sum =
        ((ks.map (wholeWeight (decide (a.method = "MaximumLikelihoodEstimator")) ks N)).sum : ℕ) := by
      rw [Nat.cast_list_sum, List.map_map]
      congr 1
      apply List.map_congr_left
      intro t _
      rw [weightOf_whole_rat]
      rfl
    rw [this]
    have h1 : ((ks.map (wholeWeight (decide (a.method = "MaximumLikelihoodEstimator")) ks N)).sum : ℚ) ≤ (ks.map N).sum + ks.length := by
      exact_mod_cast wholeWeight_sum_le _ ks N
    linarith
  · push Not at hm
    unfold pseudoOf at hqs
    rw [if_neg hm.1] at hqs
    split at hqs
    · rw [if_neg hm.2] at hqs
      split at hqs
      · cases he : a.ess with
        | none => rw [he] at hqs; simp at hqs
        | some n =>
          rw [he] at hqs hess
          cases hqs
          simp only [Option.getD_some] at hess ⊢
          have e : ∀ t : S, weightOf (.add (n / (((names v).length * (par.map fun p => (names p).length).prod : ℕ) : ℚ))) ks N t =
              (N t : ℚ) + n / (((names v).length * (par.map fun p => (names p).length).prod : ℕ) : ℚ) := fun _ => rfl
          rw [List.map_congr_left fun t _ => e t, sum_map_add_const, ← hk]
          push_cast
          have h0 : (ks.length : ℚ) * (n / (ks.length * (par.map fun p => (names p).length).prod)) ≤ n := by
            generalize (par.map fun p => (names p).length).prod = c
            by_cases hk0 : (ks.length : ℚ) = 0
            · rw [hk0]; simpa using hess
            · by_cases hc : c = 0
              · rw [hc]; simpa using hess
              · have hc1 : (1 : ℚ) ≤ c := by exact_mod_cast Nat.one_le_iff_ne_zero.2 hc
                have : (ks.length : ℚ) * (n / (ks.length * c)) = n / c := by field_simp
                rw [this]
                exact div_le_self hess hc1
          have h2 : (0 : ℚ) ≤ ks.length := Nat.cast_nonneg _
          push_cast at h0
          linarith
      · simp at hqs
    · simp at hqs

end

section
variable {V S : Type} [LinearOrder V] [LinearOrder S]

theorem countP_sum_le {α β : Type} [DecidableEq β] {l : List β} (hl : l.Nodup) (rows : List α) (p : β → α → Prop)
    [∀ b, DecidablePred (p b)] (hex : ∀ r, ∀ b b', p b r → p b' r → b = b') :
    (l.map fun b => rows.countP fun r => p b r).sum ≤ rows.length := by
  induction rows with
  | nil => simp
  | cons r rows ih =>
    have h1 : (l.map fun b => (r :: rows).countP fun r => p b r).sum =
        (l.map fun b => rows.countP fun r => p b r).sum + (l.map fun b => if p b r then 1 else 0).sum := by
      rw [← List.sum_map_add]
      congr 1
      apply List.map_congr_left
      intro b _
      rw [List.countP_cons]
      simp
    have h2 : (l.map fun b => if p b r then 1 else 0).sum ≤ 1 := by
      clear ih h1
      induction l with
      | nil => simp
      | cons b l ih =>
        rw [List.nodup_cons] at hl
        rw [List.map_cons, List.sum_cons]
        by_cases hb : p b r
        · have : (l.map fun b => if p b r then 1 else 0).sum = 0 := by
            rw [List.sum_eq_zero_iff]
            intro x hx
            obtain ⟨c, hc, rfl⟩ := List.mem_map.1 hx
            rw [if_neg]
            intro hcr
            exact hl.1 (hex r b c hb hcr ▸ hc)
          rw [if_pos hb, this]
        · rw [if_neg hb, zero_add]
          exact ih hl.2
    rw [h1, List.length_cons]
    omega

theorem observed_sum_le {K : Type} {net : Net V S K} {df : DF V S} {v : V} {ks : List S} (hks : ks.Nodup) (par : List V) (c : List S) :
    (ks.map fun s => observed net df v par s c).sum ≤ df.rows.length := by
  unfold observed
  refine countP_sum_le hks df.rows (fun s r => Known net r ∧ r v = some s ∧ par.map r = c.map some) ?_
  rintro r b b' ⟨-, h, -⟩ ⟨-, h', -⟩
  rw [h] at h'
  exact Option.some.inj h'

/-- **C111**: a `BayesianNetwork` fitted in double precision.  Every entry of its tables is a number between zero and one, close to the
estimate in exact arithmetic; for maximum likelihood and for the K2 prior it is the float nearest to this estimate.  The entries of a
column sum to one up to the same relative error. -/
theorem fit_cpds_double {int : ℕ → S} (hint : Injective int) {ns : List V} {E : List (V × V)} (hE : IsStructure ns E)
    {net net' : Net V S Double} (hr : Reach int ns E net) (hne : ∀ v ∈ net.nodes, statesOf net v ≠ [])
    {h h' : Heap V S} {ref : ℕ} {df : DF V S} (hdf : h[ref]? = some df) {a : FitArgs Double}
    (hess : ∀ n, a.ess = some n → 0 < n.val)
    (hsize : ∀ v ∈ net.nodes, df.rows.length + (statesOf net v).length + a.exact.ess.getD 0 ≤ 2 ^ 48)
    (hf : fitCpds int net h ref a = (net', h', .ok ())) :
    ∃ tables, cpds net' = .ok tables ∧ tables.map Prod.fst = net.nodes ∧ ∀ v t, (v, t) ∈ tables →
      t.index = statesOf net v ∧ IsParentList E v t.parents ∧ (∀ ps, ps ∈ t.cols ↔ IsConfig net t.parents ps) ∧
      ∀ ps, IsConfig net t.parents ps → ∃ x : S → Double,
        (∀ s ∈ statesOf net v, t.entry s ps = some (x s) ∧ 0 ≤ (x s).val ∧ (x s).val ≤ 1 ∧
          |(x s).val - estimate a.exact (statesOf net v) (t.parents.map fun p => (statesOf net p).length).prod
            (fun s => observed net df v t.parents s ps) s| ≤
            ((statesOf net v).length + 7) / 2 ^ 52 * estimate a.exact (statesOf net v)
              (t.parents.map fun p => (statesOf net p).length).prod (fun s => observed net df v t.parents s ps) s ∧
          (a.method = "MaximumLikelihoodEstimator" ∨ a.prior = some "K2" → (x s).val = rnd (estimate a.exact (statesOf net v)
            (t.parents.map fun p => (statesOf net p).length).prod (fun s => observed net df v t.parents s ps) s))) ∧
        |((statesOf net v).map fun s => (x s).val).sum - 1| ≤ ((statesOf net v).length + 7) / 2 ^ 52 ∧
        (a.method = "MaximumLikelihoodEstimator" ∨ a.prior = some "K2" →
          |((statesOf net v).map fun s => (x s).val).sum - 1| ≤ 1 / 2 ^ 53) := by
  have hw := hr.wf hE
  obtain ⟨states, -, -, hst, -⟩ := fitCpds_ok hw hf
  obtain ⟨-, -, -, names, ps, hps, hlen, tables, hc, hkeys, h3⟩ := fit_cpds_tables hint hE hr hne hdf hf
  obtain ⟨qs, hqs, hclose⟩ := pseudoOf_close rounds_double (fun n hn => (hess n hn).le) hps
  have hess' : ∀ n, a.exact.ess = some n → 0 < n := by
    intro n hn
    obtain ⟨m, hm, rfl⟩ := Option.map_eq_some_iff.1 hn
    exact hess m hm
  have hess0 : 0 ≤ a.exact.ess.getD 0 := by
    cases he : a.exact.ess with
    | none => simp
    | some n => exact (hess' n he).le
  refine ⟨tables, hc, hkeys, fun v t ht => ?_⟩
  obtain ⟨h1, h2, -, h4, h5⟩ := h3 v t ht
  have hv : v ∈ net.nodes := hkeys ▸ List.mem_map_of_mem ht
  have hnd : (statesOf net v).Nodup := by rw [statesOf_eq hst]; exact keysOf_nodup (hw.encWF hst) v
  refine ⟨h1, h2, h4, fun c hcf => ?_⟩
  have hcfgs : 0 < (t.parents.map fun p => (statesOf net p).length).prod := by
    apply Nat.pos_of_ne_zero
    intro hz
    rw [List.prod_eq_zero_iff] at hz
    obtain ⟨p, hp, hp0⟩ := List.mem_map.1 hz
    obtain ⟨i, hi, rfl⟩ := List.mem_iff_getElem.1 hp
    have hcl := hcf.length_eq
    have := List.Forall₂.get hcf (i := i) (by omega) hi
    simp only [List.get_eq_getElem] at this
    rw [List.length_eq_zero_iff.1 hp0] at this
    simp at this
  set N : S → ℕ := fun s => observed net df v t.parents s c with hN
  set e : S → ℚ := estimate a.exact (statesOf net v) (t.parents.map fun p => (statesOf net p).length).prod N with he
  have hest : ∀ s, probOf (qs v t.parents) (statesOf net v) N s = e s := by
    intro s
    rw [probOf_eq_estimate hqs v t.parents (statesOf net v) (hlen v).symm N s, he]
    simp only [hlen]
    rfl
  obtain ⟨he0, hesum⟩ := estimate_prob hess' (by
      rcases pseudoOf_ok hqs with h | h | h
      · exact Or.inl h
      · exact Or.inr (Or.inl h)
      · exact Or.inr (Or.inr h)) (hne v hv) hcfgs N
  rw [← he] at he0 hesum
  have hobs : ((statesOf net v).map N).sum ≤ df.rows.length := observed_sum_le hnd t.parents c
  have hsz := hsize v hv
  have hk0 : (0 : ℚ) ≤ df.rows.length := Nat.cast_nonneg _
  have hk : ((statesOf net v).length : ℚ) ≤ 2 ^ 48 := by linarith
  have hrel : ∀ s, |(probOf (ps v t.parents) (statesOf net v) N s).val - e s| ≤ ((statesOf net v).length + 7) / 2 ^ 52 * e s := by
    intro s
    have := (probOf_close rounds_double (hclose v t.parents) (statesOf net v) N s).relative rounds_double (by
      push_cast
      linarith)
    rw [hest] at this
    refine this.trans (le_of_eq ?_)
    push_cast
    ring
  have hwhole : a.method = "MaximumLikelihoodEstimator" ∨ a.prior = some "K2" → ∀ s ∈ statesOf net v,
      (probOf (ps v t.parents) (statesOf net v) N s).val = rnd (e s) := by
    intro hm s hs
    rw [← hest, pseudoOf_whole hps hm, pseudoOf_whole hqs hm]
    exact probOf_whole (by
      have : (((statesOf net v).map N).sum + (statesOf net v).length : ℚ) ≤ 2 ^ 48 := by
        have : (((statesOf net v).map N).sum : ℚ) ≤ df.rows.length := by exact_mod_cast hobs
        linarith
      have h2 : ((statesOf net v).map N).sum + (statesOf net v).length ≤ 2 ^ 48 := by exact_mod_cast this
      omega) hs
  have hsumerr : ∀ δ : ℚ, (∀ s ∈ statesOf net v, |(probOf (ps v t.parents) (statesOf net v) N s).val - e s| ≤ δ * e s) →
      |((statesOf net v).map fun s => (probOf (ps v t.parents) (statesOf net v) N s).val).sum - 1| ≤ δ := by
    intro δ hδ
    rw [← hesum]
    have : ∀ l : List S, (∀ s ∈ l, |(probOf (ps v t.parents) (statesOf net v) N s).val - e s| ≤ δ * e s) →
        |(l.map fun s => (probOf (ps v t.parents) (statesOf net v) N s).val).sum - (l.map e).sum| ≤ δ * (l.map e).sum := by
      intro l hl
      induction l with
      | nil => simp
      | cons s l ih =>
        simp only [List.map_cons, List.sum_cons]
        have i1 := ih fun t ht => hl t (by simp [ht])
        have i2 := hl s (by simp)
        rw [abs_le] at i1 i2 ⊢
        constructor <;> linarith [i1.1, i1.2, i2.1, i2.2]
    have := this _ hδ
    rwa [hesum, mul_one, ← hesum] at this
  refine ⟨probOf (ps v t.parents) (statesOf net v) N, fun s hs => ⟨h5 s hs c hcf, (probOf_unit (hclose v t.parents) N hs).1,
    (probOf_unit (hclose v t.parents) N hs).2, hrel s, fun hm => hwhole hm s hs⟩, hsumerr _ fun s _ => hrel s,
    fun hm => hsumerr _ fun s hs => ?_⟩
  rw [hwhole hm s hs]
  refine (rnd_near _).trans (le_of_eq ?_)
  rw [abs_of_nonneg (he0 s)]
  ring

/-- **C111**: predictions in double precision are those of exact arithmetic: after fitting, by any method, `predict` returns in each
complete row the state of the node that occurs most often in the training data together with the states of the parents in this row; the
smallest such state if there are several. -/
theorem predict_double {int : ℕ → S} (hint : Injective int) {ns : List V} {E : List (V × V)}
    (hE : IsStructure ns E) {net net' : Net V S Double} (hr : Reach int ns E net)
    (hne : ∀ v ∈ net.nodes, statesOf net v ≠ []) {h₀ h₁ : Heap V S} {ref₀ : ℕ} {train : DF V S} (htrain : h₀[ref₀]? = some train)
    {a : FitArgs Double} (hess : ∀ n, a.ess = some n → 0 < n.val)
    (hsize : ∀ v ∈ net.nodes, train.rows.length + (statesOf net v).length + a.exact.ess.getD 0 ≤ 2 ^ 48)
    (hf : fitCpds int net h₀ ref₀ a = (net', h₁, .ok ()))
    {v : V} (hv : v ∈ net.nodes) {parents : List V} (hpar : IsParentList E v parents)
    {h : Heap V S} {ref : ℕ} {df : DF V S} (hdf : h[ref]? = some df)
    (hcols : ∀ p ∈ parents, p ∈ df.cols)
    (hk : ∀ r ∈ df.rows, ∀ p ∈ parents, ∃ s ∈ statesOf net p, r p = some s)
    (oracle : DF V S → List ℕ) (predName : V → V) :
    ∃ h' out, predict oracle int predName net' h ref v = (h', .ok out) ∧
      List.Forall₂ (fun r r' => ∃ s ∈ statesOf net v, r' (predName v) = some s ∧ ∃ ps, parents.map r = ps.map some ∧
        ∀ s' ∈ statesOf net v, observed net train v parents s' ps ≤ observed net train v parents s ps ∧
          (s' < s → observed net train v parents s' ps < observed net train v parents s ps))
        df.rows out.rows := by
  have hw := hr.wf hE
  obtain ⟨states, -, -, hst, -⟩ := fitCpds_ok hw hf
  obtain ⟨-, -, -, names, pss, hps, hlen, tables, hc, hkeys, h3⟩ := fit_cpds_tables hint hE hr hne htrain hf
  obtain ⟨qs, hqs, hclose⟩ := pseudoOf_close rounds_double (fun n hn => (hess n hn).le) hps
  have hess0 : 0 ≤ a.exact.ess.getD 0 := by
    cases he : a.ess with
    | none => simp [FitArgs.exact, he]
    | some n => simpa [FitArgs.exact, he] using (hess n he).le
  have hsz := hsize v hv
  rw [← hkeys] at hv
  obtain ⟨⟨v, t⟩, ht, rfl⟩ := List.mem_map.1 hv
  obtain ⟨-, hp, -, -, hentry⟩ := h3 v t ht
  cases parentList_unique hp hpar
  have hnd : (statesOf net v).Nodup := by rw [statesOf_eq hst]; exact keysOf_nodup (hw.encWF hst) v
  obtain ⟨h', out, h1, -, -, h2⟩ := predict_argmax hint hE hr hne hf hc ht hdf hcols hk oracle predName
  refine ⟨h', out, h1, ((List.forall₂_and_left df.rows _).2 ⟨hk, h2⟩).imp ?_⟩
  rintro r r' ⟨hkr, s, hs, ps, x, hps', hr', hx, hmax⟩
  refine ⟨s, hs, hr', ps, hps', fun s' hs' => ?_⟩
  have hcfg := row_config hkr
  have hpseq : ps = t.parents.filterMap r := by
    apply List.map_injective_iff.2 (Option.some_injective S)
    exact hps'.symm.trans hcfg.1
  have hconf : IsConfig net t.parents ps := hpseq ▸ hcfg.2
  obtain ⟨y, hy, hyx, hlt⟩ := hmax s' hs'
  rw [hentry s hs ps hconf] at hx
  rw [hentry s' hs' ps hconf] at hy
  cases hx
  cases hy
  have hobs := observed_sum_le (net := net) (df := train) (v := v) hnd t.parents ps
  have hk0 : (0 : ℚ) ≤ train.rows.length := Nat.cast_nonneg _
  have hkl : (statesOf net v).length ≤ 2 ^ 48 := by
    have : ((statesOf net v).length : ℚ) ≤ 2 ^ 48 := by
      simp only at hsz
      linarith
    exact_mod_cast this
  have hT := weight_total_le hqs hess0 (hlen v).symm t.parents fun s => observed net train v t.parents s ps
  have hiff : ∀ {b b' : S}, b ∈ statesOf net v → b' ∈ statesOf net v → _ := fun hb hb' =>
    probOf_le_iff (hclose v t.parents) (N := fun s => observed net train v t.parents s ps) hkl (hT.trans (by
      have : (((statesOf net v).map fun s => observed net train v t.parents s ps).sum : ℚ) ≤ train.rows.length := by exact_mod_cast hobs
      simp only at hsz
      change _ + a.exact.ess.getD 0 ≤ _
      linarith)) hb hb'
  refine ⟨(hiff hs' hs).1 hyx, fun h => ?_⟩
  have := hlt h
  by_contra hcon
  exact absurd ((hiff hs hs').2 (not_lt.1 hcon)) (not_le.2 this)

end

end Verif.Network
