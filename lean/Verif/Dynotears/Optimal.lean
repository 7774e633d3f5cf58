import Verif.Dynotears.Objective
import Verif.Notears.PropsOptimal

/-!
# C86 for dynamic structure learning
-/

namespace Verif.Dynotears

open Verif.Notears Verif.Str Matrix Finset

/-! ### Specification -/

/-- Half the mean, over the rows, of the squared distance between the row and its linear prediction from itself (weights `w 0`) and
from the earlier rows (weights `w k` for lag `k`). -/
noncomputable def squaredErrorDyn (X Xlags : Data ℝ) (p : ℕ) (w : ℕ → ℕ → ℕ → ℝ) : ℝ :=
  (∑ r ∈ range X.rows, ∑ j ∈ range X.cols, (X.val r j - ∑ i ∈ range X.cols, X.val r i * w 0 i j -
    ∑ k ∈ range p, ∑ i ∈ range X.cols, Xlags.val r (k * X.cols + i) * w (k + 1) i j) ^ 2) / (2 * X.rows)

/-- Squared error plus penalties: `lambda_w` times the sum of the absolute values of the weights of lag 0, `lambda_a` times that of the
other weights. -/
noncomputable def errorDyn (lambdaW lambdaA : ℝ) (X Xlags : Data ℝ) (p : ℕ) (w : ℕ → ℕ → ℕ → ℝ) : ℝ :=
  squaredErrorDyn X Xlags p w + (lambdaW * absSum X.cols (w 0) + lambdaA * ∑ k ∈ range p, absSum X.cols (w (k + 1)))

/-! ### Positive and negative parts -/

/-- The entry of a vector for the positive (`s = 0`) or negative (`s = 1`) part of a weight. -/
noncomputable def part (d : ℕ) (vec : List ℝ) (s k i j : ℕ) : ℝ := vec.getD ((2 * k + s) * d ^ 2 + i * d + j) 0

theorem weightOf_part (d : ℕ) (vec : List ℝ) (k i j : ℕ) : weightOf d vec k i j = part d vec 0 k i j - part d vec 1 k i j := rfl

theorem sum_first (d : ℕ) (vec : List ℝ) : (vec.take (2 * d ^ 2)).sum =
    ∑ i ∈ range d, ∑ j ∈ range d, (part d vec 0 0 i j + part d vec 1 0 i j) := by
  have h := sum_blocks (fun c => vec.getD c 0 + vec.getD (d ^ 2 + c) 0) d d
  rw [sum_take, sum_blocks (fun k => vec.getD k 0) 2 (d ^ 2), Finset.sum_range_succ, Finset.sum_range_one,
    ← Finset.sum_add_distrib, sq]
  rw [sq] at h
  simp only [Nat.zero_mul, Nat.zero_add, Nat.one_mul]
  rw [h]
  refine Finset.sum_congr rfl fun i _ => Finset.sum_congr rfl fun j _ => ?_
  unfold part
  congr 2 <;> ring

theorem sum_rest (d p : ℕ) (vec : List ℝ) (h : vec.length = 2 * (p + 1) * d ^ 2) : (vec.drop (2 * d ^ 2)).sum =
    ∑ k ∈ range p, ∑ i ∈ range d, ∑ j ∈ range d, (part d vec 0 (k + 1) i j + part d vec 1 (k + 1) i j) := by
  have h' : vec.length = 2 * d ^ 2 + 2 * p * d ^ 2 := by rw [h]; ring
  rw [sum_drop vec h', sum_blocks (fun k => vec.getD (2 * d ^ 2 + k) 0) (2 * p) (d ^ 2), sum_pairs]
  refine Finset.sum_congr rfl fun q _ => ?_
  rw [← Finset.sum_add_distrib]
  have hb := sum_blocks (fun c => vec.getD (2 * d ^ 2 + (2 * q * d ^ 2 + c)) 0 + vec.getD (2 * d ^ 2 + ((2 * q + 1) * d ^ 2 + c)) 0) d d
  rw [← sq] at hb
  rw [hb]
  refine Finset.sum_congr rfl fun i _ => Finset.sum_congr rfl fun j _ => ?_
  unfold part
  congr 2 <;> ring

theorem part_nonneg {t : Tabu ℕ} {d p : ℕ} {vec : List ℝ} (h : InBox (bounds t d p) vec) {s k i j : ℕ} (hs : s < 2) (hk : k ≤ p)
    (hi : i < d) (hj : j < d) : 0 ≤ part d vec s k i j := by
  have hg := bounds_get (K := ℝ) (t := t) s hs hk hi hj
  have hm := mem_bounds (List.mem_of_getElem? hg)
  have := inBox_getD h hg
  rcases hm with hm | hm <;> rw [hm] at this <;> exact this.1 0 rfl

theorem box_length {t : Tabu ℕ} {d p : ℕ} {vec : List ℝ} (h : InBox (bounds t d p) vec) : vec.length = 2 * (p + 1) * d ^ 2 := by
  rw [← h.length_eq, bounds_length]

/-- The penalty of a vector within the bounds is at least that of its weights. -/
theorem penalty_le {t : Tabu ℕ} {d p : ℕ} {vec : List ℝ} (h : InBox (bounds t d p) vec) :
    absSum d (weightOf d vec 0) ≤ (vec.take (2 * d ^ 2)).sum ∧
      ∑ k ∈ range p, absSum d (weightOf d vec (k + 1)) ≤ (vec.drop (2 * d ^ 2)).sum := by
  have key : ∀ k ≤ p, ∀ i ∈ range d, ∀ j ∈ range d, |weightOf d vec k i j| ≤ part d vec 0 k i j + part d vec 1 k i j := by
    intro k hk i hi j hj
    rw [Finset.mem_range] at hi hj
    have h0 := part_nonneg h (s := 0) (by omega) hk hi hj
    have h1 := part_nonneg h (s := 1) (by omega) hk hi hj
    rw [weightOf_part, abs_le]
    constructor <;> linarith
  rw [sum_first, sum_rest d p vec (box_length h)]
  refine ⟨?_, ?_⟩
  · exact Finset.sum_le_sum fun i hi => Finset.sum_le_sum fun j hj => key 0 (by omega) i hi j hj
  · refine Finset.sum_le_sum fun k hk => Finset.sum_le_sum fun i hi => Finset.sum_le_sum fun j hj => key (k + 1) ?_ i hi j hj
    rw [Finset.mem_range] at hk
    omega

theorem boundW_free {t : Tabu ℕ} {i j : ℕ} (h : Permitted t 0 i j) : (boundW t (i, j) : Bound ℝ) = (some 0, none) := by
  obtain ⟨h1, h2, h3, h4⟩ := h
  unfold boundW
  rw [if_neg (h1 rfl), if_neg, if_neg, if_neg]
  · rw [Option.any_eq_true]; rintro ⟨x, hx, hx'⟩; exact h4 x hx (by simpa using hx')
  · rw [Option.any_eq_true]; rintro ⟨x, hx, hx'⟩; exact h3 x hx (by simpa using hx')
  · rw [Option.any_eq_true]; rintro ⟨x, hx, hx'⟩; exact h2 x hx (by simpa using hx')

theorem boundA_free {t : Tabu ℕ} {k i j : ℕ} (h : Permitted t k i j) : (boundA t k (i, j) : Bound ℝ) = (some 0, none) := by
  obtain ⟨h1, h2, h3, h4⟩ := h
  unfold boundA
  rw [if_neg, if_neg, if_neg]
  · rw [Option.any_eq_true]; rintro ⟨x, hx, hx'⟩; exact h4 x hx (by simpa using hx')
  · rw [Option.any_eq_true]; rintro ⟨x, hx, hx'⟩; exact h3 x hx (by simpa using hx')
  · rw [Option.any_eq_true]; rintro ⟨x, hx, hx'⟩; exact h2 x hx (by simpa using hx')

/-- The vector of positive and negative parts of given weights. -/
noncomputable def splitVec (d p : ℕ) (w : ℕ → ℕ → ℕ → ℝ) : List ℝ :=
  (List.range (p + 1)).flatMap fun k => rowMajor d (fun i j => max (w k i j) 0) ++ rowMajor d fun i j => max (- w k i j) 0

theorem rowMajor_length (d : ℕ) (V : ℕ → ℕ → ℝ) : (rowMajor d V).length = d ^ 2 := by
  rw [rowMajor, List.length_map, cells_length, sq]

theorem splitVec_part (d p : ℕ) (w : ℕ → ℕ → ℕ → ℝ) {k i j : ℕ} (hk : k ≤ p) (hi : i < d) (hj : j < d) :
    part d (splitVec d p w) 0 k i j = max (w k i j) 0 ∧ part d (splitVec d p w) 1 k i j = max (- w k i j) 0 := by
  have hc := cell_lt' hi hj
  have hget : ∀ V : ℕ → ℕ → ℝ, (rowMajor d V)[i * d + j]? = some (V i j) := by
    intro V
    rw [rowMajor, List.getElem?_map, cells_get hi hj]
    rfl
  have hl : ∀ k, (rowMajor d (fun i j => max (w k i j) 0) ++ rowMajor d fun i j => max (- w k i j) 0).length = 2 * d ^ 2 := by
    intro k
    rw [List.length_append, rowMajor_length, rowMajor_length]
    omega
  refine ⟨?_, ?_⟩
  · unfold part splitVec
    rw [List.getD_eq_getElem?_getD, show (2 * k + 0) * d ^ 2 + i * d + j = k * (2 * d ^ 2) + (i * d + j) by ring,
      flatMap_range_get _ _ _ hl k _ (by omega) (by omega), List.getElem?_append_left (by rw [rowMajor_length]; exact hc), hget]
    rfl
  · unfold part splitVec
    rw [List.getD_eq_getElem?_getD, show (2 * k + 1) * d ^ 2 + i * d + j = k * (2 * d ^ 2) + (d ^ 2 + (i * d + j)) by ring,
      flatMap_range_get _ _ _ hl k _ (by omega) (by omega), List.getElem?_append_right (by rw [rowMajor_length]; omega),
      rowMajor_length, Nat.add_sub_cancel_left, hget]
    rfl

theorem splitVec_weight (d p : ℕ) (w : ℕ → ℕ → ℕ → ℝ) {k i j : ℕ} (hk : k ≤ p) (hi : i < d) (hj : j < d) :
    weightOf d (splitVec d p w) k i j = w k i j ∧
      part d (splitVec d p w) 0 k i j + part d (splitVec d p w) 1 k i j = |w k i j| := by
  obtain ⟨h1, h2⟩ := splitVec_part d p w hk hi hj
  rw [weightOf_part, h1, h2]
  rcases le_total 0 (w k i j) with h0 | h0
  · rw [max_eq_left h0, max_eq_right (by linarith), sub_zero, add_zero, abs_of_nonneg h0]
    exact ⟨rfl, rfl⟩
  · rw [max_eq_right h0, max_eq_left (by linarith), zero_sub, zero_add, neg_neg, abs_of_nonpos h0]
    exact ⟨rfl, rfl⟩

theorem splitVec_box {t : Tabu ℕ} {d p : ℕ} {w : ℕ → ℕ → ℕ → ℝ}
    (hw : ∀ k ≤ p, ∀ i < d, ∀ j < d, w k i j ≠ 0 → Permitted t k i j) : InBox (bounds t d p) (splitVec d p w) := by
  have hblock : ∀ k ≤ p, ∀ V : ℕ → ℕ → ℝ, (∀ i < d, ∀ j < d, 0 ≤ V i j ∧ (V i j ≠ 0 → Permitted t k i j)) →
      InBox (block t d k) (rowMajor d V) := by
    intro k hk V hV
    rw [block, rowMajor, InBox, List.forall₂_map_left_iff, List.forall₂_map_right_iff, List.forall₂_same]
    intro c hc
    obtain ⟨h1, h2⟩ := mem_cells.1 (show (c.1, c.2) ∈ cells d from hc)
    obtain ⟨h3, h4⟩ := hV _ h1 _ h2
    by_cases hp : Permitted t k c.1 c.2
    · have : (if k = 0 then boundW t c else boundA t k c : Bound ℝ) = (some 0, none) := by
        split
        · rename_i h0; subst h0; exact boundW_free hp
        · exact boundA_free hp
      rw [this]
      simpa using h3
    · have h0 : V c.1 c.2 = 0 := by by_contra hne; exact hp (h4 hne)
      have : (if k = 0 then boundW t c else boundA t k c : Bound ℝ) = (some 0, some 0) := by
        split
        · rename_i h0; subst h0; exact boundW_zero hp
        · rename_i h0; exact boundA_zero h0 hp
      rw [this, h0]
      simp
  have hflat : ∀ (l : List ℕ) (f : ℕ → List (Bound ℝ)) (g : ℕ → List ℝ), (∀ k ∈ l, InBox (f k) (g k)) →
      InBox (l.flatMap f) (l.flatMap g) := by
    intro l f g
    induction l with
    | nil => intro _; exact .nil
    | cons k l ih =>
      intro h
      rw [List.flatMap_cons, List.flatMap_cons]
      exact List.rel_append (h k (by simp)) (ih fun k hk => h k (by simp [hk]))
  rw [bounds_eq, splitVec]
  refine hflat _ _ _ fun k hk => ?_
  have hk : k ≤ p := by rw [List.mem_range] at hk; omega
  refine List.rel_append (hblock k hk _ ?_) (hblock k hk _ ?_)
  · intro i hi j hj
    refine ⟨le_max_right _ _, fun hne => hw k hk i hi j hj fun h0 => hne ?_⟩
    rw [h0, max_self]
  · intro i hi j hj
    refine ⟨le_max_right _ _, fun hne => hw k hk i hi j hj fun h0 => hne ?_⟩
    rw [h0, neg_zero, max_self]

theorem splitVec_length (d p : ℕ) (w : ℕ → ℕ → ℕ → ℝ) : (splitVec d p w).length = 2 * (p + 1) * d ^ 2 := by
  rw [splitVec, List.length_flatMap]
  simp only [List.length_append, rowMajor_length]
  rw [List.map_const', List.sum_replicate, List.length_range]
  change (p + 1) * (d ^ 2 + d ^ 2) = _
  ring

theorem splitVec_sums (d p : ℕ) (w : ℕ → ℕ → ℕ → ℝ) : ((splitVec d p w).take (2 * d ^ 2)).sum = absSum d (w 0) ∧
    ((splitVec d p w).drop (2 * d ^ 2)).sum = ∑ k ∈ range p, absSum d (w (k + 1)) := by
  rw [sum_first, sum_rest d p _ (splitVec_length d p w)]
  refine ⟨?_, ?_⟩
  · refine Finset.sum_congr rfl fun i hi => Finset.sum_congr rfl fun j hj => ?_
    rw [Finset.mem_range] at hi hj
    exact (splitVec_weight d p w (by omega) hi hj).2
  · refine Finset.sum_congr rfl fun k hk => Finset.sum_congr rfl fun i hi => Finset.sum_congr rfl fun j hj => ?_
    rw [Finset.mem_range] at hi hj hk
    exact (splitVec_weight d p w (by omega) hi hj).2

/-! ### The objective -/

theorem lossDyn_eq {X Xlags : Data ℝ} (hS : Shapes X Xlags) (vec : List ℝ) :
    lossDyn X.matrix (fun i j => (Xlags.entry i j).getD 0) (matW X.cols vec) (matA X.cols Xlags.cols vec) =
      squaredErrorDyn X Xlags (Xlags.cols / X.cols) (weightOf X.cols vec) := by
  obtain ⟨-, hd, -, -, p, hp⟩ := hS
  have hdp : Xlags.cols / X.cols = p := by rw [hp]; exact Nat.mul_div_cancel_left p (by omega)
  rw [hdp]
  unfold lossDyn squaredErrorDyn
  rw [Finset.sum_range, div_eq_mul_inv, mul_comm]
  congr 1
  rotate_left
  · rw [mul_inv]
    norm_num
  · refine Finset.sum_congr rfl fun r _ => ?_
    rw [Finset.sum_range]
    refine Finset.sum_congr rfl fun j _ => ?_
    congr 1
    unfold residual
    have hY : ∀ (M : Matrix (Fin X.rows) (Fin X.cols) ℝ) (Y : Matrix (Fin X.rows) (Fin Xlags.cols) ℝ)
        (W : Matrix (Fin X.cols) (Fin X.cols) ℝ) (A : Matrix (Fin Xlags.cols) (Fin X.cols) ℝ), (M * (1 - W) - Y * A : Matrix (Fin X.rows) (Fin X.cols) ℝ) r j =
        M r j - ∑ i, M r i * W i j - ∑ i, Y r i * A i j := by
      intro M Y W A
      rw [Matrix.mul_sub, Matrix.mul_one, Matrix.sub_apply, Matrix.sub_apply, Matrix.mul_apply, Matrix.mul_apply]
    refine (hY _ _ _ _).trans ?_
    congr 1
    · congr 1
      rw [Finset.sum_range]
      refine Finset.sum_congr rfl fun i _ => ?_
      rw [matW_eq]
      rfl
    · have := sum_blocks (fun m => Xlags.val r m * weightOf X.cols vec (m / X.cols + 1) (m % X.cols) j) p X.cols
      rw [Nat.mul_comm p, ← hp, Finset.sum_range] at this
      rw [show ∑ i : Fin Xlags.cols, (Xlags.entry r i).getD 0 * matA X.cols Xlags.cols vec i j = _ from
        Finset.sum_congr rfl fun i _ => by rw [matA_eq hd]]
      refine this.trans ?_
      refine Finset.sum_congr rfl fun k _ => Finset.sum_congr rfl fun i hi => ?_
      rw [Finset.mem_range] at hi
      rw [Nat.add_comm (k * X.cols) i, Nat.add_mul_div_right _ _ (by omega), Nat.div_eq_of_lt hi, Nat.zero_add,
        Nat.add_mul_mod_self_right, Nat.mod_eq_of_lt hi]

theorem problem_penalised (lambdaW lambdaA : ℝ) {X Xlags : Data ℝ} (hS : Shapes X Xlags) :
    Penalised (problem lambdaW lambdaA X Xlags) (fun vec => squaredErrorDyn X Xlags (Xlags.cols / X.cols) (weightOf X.cols vec) +
        (lambdaW * (vec.take (2 * X.cols ^ 2)).sum + lambdaA * (vec.drop (2 * X.cols ^ 2)).sum))
      fun vec => expScore (matW X.cols vec) where
  func rho alpha vec := by
    rw [← lossDyn_eq hS]
    change ((_ : ℝ) : WithTop ℝ) = _
    congr 1
    simp only
    rw [show (0.5 : ℝ) = 1 / 2 by norm_num, sq]
    ring
  score w := rfl
  nonneg w := expScore_nonneg _

theorem squaredErrorDyn_nonneg (X Xlags : Data ℝ) (p : ℕ) (w : ℕ → ℕ → ℕ → ℝ) : 0 ≤ squaredErrorDyn X Xlags p w :=
  div_nonneg (Finset.sum_nonneg fun _ _ => Finset.sum_nonneg fun _ _ => sq_nonneg _) (by positivity)

theorem squaredErrorDyn_congr (X Xlags : Data ℝ) (p : ℕ) {v w : ℕ → ℕ → ℕ → ℝ}
    (h : ∀ k ≤ p, ∀ i < X.cols, ∀ j < X.cols, v k i j = w k i j) : squaredErrorDyn X Xlags p v = squaredErrorDyn X Xlags p w := by
  unfold squaredErrorDyn
  congr 1
  refine Finset.sum_congr rfl fun r _ => Finset.sum_congr rfl fun j hj => ?_
  rw [Finset.mem_range] at hj
  congr 2
  · congr 1
    refine Finset.sum_congr rfl fun i hi => ?_
    rw [Finset.mem_range] at hi
    rw [h 0 (by omega) i hi j hj]
  · refine Finset.sum_congr rfl fun k hk => Finset.sum_congr rfl fun i hi => ?_
    rw [Finset.mem_range] at hi hk
    rw [h (k + 1) (by omega) i hi j hj]

theorem squaredErrorDyn_zero (X Xlags : Data ℝ) (p : ℕ) : 2 * squaredErrorDyn X Xlags p (fun _ _ _ => 0) = meanSquare X := by
  unfold squaredErrorDyn meanSquare
  simp only [mul_zero, Finset.sum_const_zero, sub_zero]
  by_cases h : (X.rows : ℝ) = 0
  · rw [h]; simp
  · field_simp

theorem absSum_nonneg (d : ℕ) (W : ℕ → ℕ → ℝ) : 0 ≤ absSum d W :=
  Finset.sum_nonneg fun _ _ => Finset.sum_nonneg fun _ _ => abs_nonneg _

/-! ### The theorems -/

section
variable {minimize : Minimizer ℝ} {fuel : ℕ} {lambdaW lambdaA : ℝ} {X Xlags : Data ℝ} {a : Params ℝ ℕ} {g : Graph Str ℝ} {warned : Bool}

/-- **C86** for `from_numpy_dynamic`: the graph is that of weights whose squared error and penalties together are not larger than those
of any weights that are acyclic at lag 0 and that the optimiser, whenever called, does not miss. -/
theorem dynotears_best (hm : RespectsBounds minimize) (h : dynotears minimize fuel lambdaW lambdaA X Xlags a = .ok (g, warned))
    (hmax : a.maxIter ≠ 0) (hlW : 0 ≤ lambdaW) (hlA : 0 ≤ lambdaA) :
    ∃ w : ℕ → ℕ → ℕ → ℝ,
      IsDynGraph ((List.range X.cols).map natStr) (Xlags.cols / X.cols) w a.wThreshold "unknown" g ∧
      ∀ v, AcyclicWeights X.cols (v 0) → NotWorse (problem lambdaW lambdaA X Xlags) minimize
          (bounds a.tabu X.cols (Xlags.cols / X.cols)) (splitVec X.cols (Xlags.cols / X.cols) v) →
        errorDyn lambdaW lambdaA X Xlags (Xlags.cols / X.cols) w ≤ errorDyn lambdaW lambdaA X Xlags (Xlags.cols / X.cols) v := by
  obtain ⟨hS, s, hs, hr⟩ := fromNumpyDynamicW_ok.1 h
  obtain ⟨rfl, rfl⟩ := Prod.mk.inj hr
  refine ⟨weightOf X.cols s.wEst, toGraph_dyn hS.2.1 _ _, ?_⟩
  intro v hv hw
  have hm0 : matW X.cols (splitVec X.cols (Xlags.cols / X.cols) v) = fun i j : Fin X.cols => v 0 i j := by
    funext i j
    rw [matW_eq]
    exact (splitVec_weight _ _ _ (Nat.zero_le _) i.2 j.2).1
  have := learnLoop_best (problem_penalised lambdaW lambdaA hS) hm hs hmax (bounds_zero _ _ _)
    (by rw [hm0]; exact (expScore_eq_zero_iff _).2 hv) hw
  rw [squaredErrorDyn_congr X Xlags _ (w := v) fun k hk i hi j hj => (splitVec_weight _ _ _ hk hi hj).1, (splitVec_sums _ _ _).1,
    (splitVec_sums _ _ _).2] at this
  have hbox := learnLoop_inBox hm hs (bounds_zero _ _ _)
  obtain ⟨p1, p2⟩ := penalty_le hbox
  have q1 := mul_le_mul_of_nonneg_left p1 hlW
  have q2 := mul_le_mul_of_nonneg_left p2 hlA
  unfold errorDyn
  linarith

/-- **C86** for `from_numpy_dynamic`: an optimiser that finds minima gives weights whose squared error and penalties together are not
larger than those of any weights that are acyclic at lag 0 and without excluded edges. -/
theorem dynotears_minimum (hm : RespectsBounds minimize) (h : dynotears minimize fuel lambdaW lambdaA X Xlags a = .ok (g, warned))
    (hmax : a.maxIter ≠ 0) (hlW : 0 ≤ lambdaW) (hlA : 0 ≤ lambdaA)
    (hopt : FindsMinima (problem lambdaW lambdaA X Xlags) minimize (bounds a.tabu X.cols (Xlags.cols / X.cols))) :
    ∃ w : ℕ → ℕ → ℕ → ℝ,
      IsDynGraph ((List.range X.cols).map natStr) (Xlags.cols / X.cols) w a.wThreshold "unknown" g ∧
      ∀ v, AcyclicWeights X.cols (v 0) →
        (∀ k ≤ Xlags.cols / X.cols, ∀ i < X.cols, ∀ j < X.cols, v k i j ≠ 0 → Permitted a.tabu k i j) →
        errorDyn lambdaW lambdaA X Xlags (Xlags.cols / X.cols) w ≤ errorDyn lambdaW lambdaA X Xlags (Xlags.cols / X.cols) v := by
  obtain ⟨w, h1, h2⟩ := dynotears_best hm h hmax hlW hlA
  exact ⟨w, h1, fun v hv hp => h2 v hv (hopt _ (splitVec_box hp))⟩

/-- **C86** for `from_numpy_dynamic`, convergence. -/
theorem dynotears_converges (hm : RespectsBounds minimize) (h : dynotears minimize fuel lambdaW lambdaA X Xlags a = .ok (g, warned))
    (hmax : a.maxIter ≠ 0) (hlW : 0 ≤ lambdaW) (hlA : 0 ≤ lambdaA)
    (hzero : NotWorse (problem lambdaW lambdaA X Xlags) minimize (bounds a.tabu X.cols (Xlags.cols / X.cols))
      (splitVec X.cols (Xlags.cols / X.cols) fun _ _ _ => 0)) (ht : 0 ≤ a.hTol)
    (hlim : meanSquare X ≤ 10 ^ 19 * a.hTol ^ 2) (hit : meanSquare X ≤ (a.hTol * 4 ^ (a.maxIter - 1)) ^ 2) :
    warned = false ∧
    (0 ≤ a.wThreshold → (∀ k, 0 < k → k ≤ X.cols → ((k - 1).factorial : ℝ) * a.hTol < a.wThreshold ^ (2 * k)) → g.Acyclic) := by
  have h' := h
  obtain ⟨hS, s, hs, hr⟩ := fromNumpyDynamicW_ok.1 h'
  obtain ⟨-, rfl⟩ := Prod.mk.inj hr
  have hm0 : matW X.cols (splitVec X.cols (Xlags.cols / X.cols) fun _ _ _ => 0) = fun _ _ : Fin X.cols => 0 := by
    funext i j
    rw [matW_eq]
    exact (splitVec_weight _ _ _ (Nat.zero_le _) i.2 j.2).1
  have ha : absSum X.cols (fun _ _ => 0) = 0 := by simp [absSum]
  have hF : squaredErrorDyn X Xlags (Xlags.cols / X.cols) (weightOf X.cols (splitVec X.cols (Xlags.cols / X.cols) fun _ _ _ => 0)) +
      (lambdaW * ((splitVec X.cols (Xlags.cols / X.cols) fun _ _ _ => 0).take (2 * X.cols ^ 2)).sum +
        lambdaA * ((splitVec X.cols (Xlags.cols / X.cols) fun _ _ _ => 0).drop (2 * X.cols ^ 2)).sum) =
      squaredErrorDyn X Xlags (Xlags.cols / X.cols) fun _ _ _ => 0 := by
    rw [(splitVec_sums _ _ _).1, (splitVec_sums _ _ _).2, ha, Finset.sum_const_zero, mul_zero, mul_zero, add_zero, add_zero]
    exact squaredErrorDyn_congr X Xlags _ fun k hk i hi j hj => (splitVec_weight _ _ _ hk hi hj).1
  have hc := learnLoop_converges (c := 0) (problem_penalised lambdaW lambdaA hS) hm hs hmax (bounds_zero _ _ _)
    (by rw [hm0]; exact (expScore_eq_zero_iff _).2 (acyclic_zero _)) hzero
    (fun vec hv => by
      obtain ⟨p1, p2⟩ := penalty_le hv
      have q1 := le_trans (absSum_nonneg _ _) p1
      have q2 := le_trans (Finset.sum_nonneg fun _ _ => absSum_nonneg _ _) p2
      exact add_nonneg (squaredErrorDyn_nonneg _ _ _ _) (add_nonneg (mul_nonneg hlW q1) (mul_nonneg hlA q2))) ht
    (by rw [hF, sub_zero, squaredErrorDyn_zero]; exact hlim) (by rw [hF, sub_zero, squaredErrorDyn_zero]; exact hit)
  rw [hc.2] at h ⊢
  exact ⟨rfl, fun h1 h2 => dynotears_acyclic h hmax h1 h2⟩

end

end Verif.Dynotears
