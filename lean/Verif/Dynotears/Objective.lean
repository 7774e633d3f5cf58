import Verif.Dynotears.PropsPandas
import Verif.Notears.PropsObjective

/-!
# The objective of dynamic structure learning, over the reals: C71 and C72
-/

namespace Verif.Dynotears

open Verif.Notears Verif.Str Matrix Finset

/-- `_w_mat`. -/
noncomputable def matW (d : ℕ) (vec : List ℝ) : Matrix (Fin d) (Fin d) ℝ := fun i j => wMat d vec i j

/-- `_a_mat`, with `L` rows. -/
noncomputable def matA (d L : ℕ) (vec : List ℝ) : Matrix (Fin L) (Fin d) ℝ := fun i j => aMat d vec i j

section
variable {n d L : ℕ} (X : Matrix (Fin n) (Fin d) ℝ) (Y : Matrix (Fin n) (Fin L) ℝ)

/-- `X.dot(np.eye(d_vars, d_vars) - _w_mat) - Xlags.dot(_a_mat)`: `structure/dynotears.py:424`, `450`,
`461`. -/
noncomputable def residual (W : Matrix (Fin d) (Fin d) ℝ) (A : Matrix (Fin L) (Fin d) ℝ) :
    Matrix (Fin n) (Fin d) ℝ := X * (1 - W) - Y * A

/-- `loss`: `structure/dynotears.py:418-427`. -/
noncomputable def lossDyn (W : Matrix (Fin d) (Fin d) ℝ) (A : Matrix (Fin L) (Fin d) ℝ) : ℝ :=
  0.5 / n * ∑ i, ∑ j, (residual X Y W A i j) ^ 2

/-- `obj_grad_w`: `structure/dynotears.py:447-455`. -/
noncomputable def objGradW (rho alpha : ℝ) (W : Matrix (Fin d) (Fin d) ℝ) (A : Matrix (Fin L) (Fin d) ℝ) :
    Matrix (Fin d) (Fin d) ℝ :=
  let E := NormedSpace.exp (W ⊙ W)
  (-1.0 / (n : ℝ)) • (Xᵀ * residual X Y W A) + ((((rho * (trace E - d) + alpha) • Eᵀ) ⊙ W).map (· * 2))

/-- `obj_grad_a`: `structure/dynotears.py:456-460`. -/
noncomputable def objGradA (W : Matrix (Fin d) (Fin d) ℝ) (A : Matrix (Fin L) (Fin d) ℝ) :
    Matrix (Fin L) (Fin d) ℝ := (-1.0 / (n : ℝ)) • (Yᵀ * residual X Y W A)

end

/-- `a.flatten()` (numpy, row-major). -/
def flat {r d : ℕ} (M : Matrix (Fin r) (Fin d) ℝ) : List ℝ :=
  List.ofFn fun k : Fin (r * d) => M k.divNat k.modNat

/-- What `_learn_dynamic_structure` optimises: `structure/dynotears.py:393-469`.  For `alpha = inf` (never
reached) the gradient is arbitrary. -/
noncomputable def problem (lambdaW lambdaA : ℝ) (X Xlags : Data ℝ) : Problem ℝ where
  func rho alpha vec := alpha.map fun a =>
    let W := matW X.cols vec
    let h := expScore W
    lossDyn X.matrix (fun i j => (Xlags.entry i j).getD 0) W (matA X.cols Xlags.cols vec) + 0.5 * rho * h * h +
      a * h + (lambdaW * (vec.take (2 * X.cols ^ 2)).sum + lambdaA * (vec.drop (2 * X.cols ^ 2)).sum)
  grad rho alpha vec :=
    let Y : Matrix (Fin X.rows) (Fin Xlags.cols) ℝ := fun i j => (Xlags.entry i j).getD 0
    let gw := flat (objGradW X.matrix Y rho (alpha.untopD 0) (matW X.cols vec) (matA X.cols Xlags.cols vec))
    let ga := flat (objGradA X.matrix Y (matW X.cols vec) (matA X.cols Xlags.cols vec))
    let vw := (gw ++ gw.map (-·)).map (· + lambdaW)
    let va := ((List.range (Xlags.cols / X.cols)).flatMap fun q =>
      let row := (ga.drop (q * X.cols ^ 2)).take (X.cols ^ 2)
      row ++ row.map (-·)).map (· + lambdaA)
    vw ++ va
  score vec := (expScore (matW X.cols vec) : ℝ)

/-- `from_numpy_dynamic` with its objective. -/
noncomputable def dynotears (minimize : Minimizer ℝ) (fuel : ℕ) (lambdaW lambdaA : ℝ) (X Xlags : Data ℝ)
    (a : Params ℝ ℕ) : Except Err (Graph Str ℝ × Bool) :=
  fromNumpyDynamicW (problem lambdaW lambdaA X Xlags) minimize fuel X Xlags a

/-! ### The gradient -/

section
variable {n d L : ℕ} (X : Matrix (Fin n) (Fin d) ℝ) (Y : Matrix (Fin n) (Fin L) ℝ)
variable {E : Type} [NormedAddCommGroup E] [NormedSpace ℝ E]

theorem hasFDerivAt_lossDyn {φ : E → Matrix (Fin d) (Fin d) ℝ} {φ' : Fin d → Fin d → E →L[ℝ] ℝ}
    {ψ : E → Matrix (Fin L) (Fin d) ℝ} {ψ' : Fin L → Fin d → E →L[ℝ] ℝ} {x : E}
    (hφ : ∀ i j, HasFDerivAt (fun y => φ y i j) (φ' i j) x)
    (hψ : ∀ i j, HasFDerivAt (fun y => ψ y i j) (ψ' i j) x) :
    HasFDerivAt (fun y => lossDyn X Y (φ y) (ψ y))
      ((∑ i, ∑ j, ((-1.0 / (n : ℝ)) • (Xᵀ * residual X Y (φ x) (ψ x)) : Matrix (Fin d) (Fin d) ℝ) i j • φ' i j) +
        ∑ i, ∑ j, (objGradA X Y (φ x) (ψ x)) i j • ψ' i j) x := by
  have hR : ∀ r j, HasFDerivAt (fun y => residual X Y (φ y) (ψ y) r j)
      ((∑ k, (-X r k) • φ' k j) - ∑ k, (Y r k) • ψ' k j) x := by
    intro r j
    unfold residual
    simp only [Matrix.mul_apply, Matrix.sub_apply]
    refine HasFDerivAt.sub (HasFDerivAt.fun_sum fun k _ => ?_) (HasFDerivAt.fun_sum fun k _ => ?_)
    · have := ((hφ k j).const_sub ((1 : Matrix (Fin d) (Fin d) ℝ) k j)).const_mul (X r k)
      refine this.congr_fderiv ?_
      ext v
      simp
    · exact (hψ k j).const_mul (Y r k)
  have h2 : HasFDerivAt (fun y => lossDyn X Y (φ y) (ψ y)) (((0.5 : ℝ) / n) • ∑ r, ∑ j,
      ((2 * residual X Y (φ x) (ψ x) r j) • ((∑ k, (-X r k) • φ' k j) - ∑ k, (Y r k) • ψ' k j))) x := by
    unfold lossDyn
    refine HasFDerivAt.const_mul ?_ _
    refine HasFDerivAt.fun_sum fun r _ => HasFDerivAt.fun_sum fun j _ => ?_
    refine ((hR r j).pow 2).congr_fderiv ?_
    simp
  refine h2.congr_fderiv ?_
  ext v
  have e1 : (0.5 : ℝ) = 1 / 2 := by norm_num
  have e2 : (-1.0 : ℝ) = -1 := by norm_num
  unfold objGradA
  simp only [ContinuousLinearMap.smul_apply, ContinuousLinearMap.sum_apply, smul_eq_mul, Matrix.smul_apply,
    ContinuousLinearMap.add_apply, ContinuousLinearMap.sub_apply, Matrix.mul_apply (M := Xᵀ),
    Matrix.mul_apply (M := Yᵀ), Matrix.transpose_apply, Finset.mul_sum, Finset.sum_mul, mul_sub,
    Finset.sum_sub_distrib, e1, e2]
  have hc : ∀ {m : ℕ} (Z : Fin n → Fin m → ℝ) (V : Fin m → Fin d → ℝ), (∑ i, ∑ j, ∑ r, -1 / (n : ℝ) *
      (Z r i * residual X Y (φ x) (ψ x) r j) * V i j) =
      ∑ r, ∑ j, ∑ k, 1 / 2 / (n : ℝ) * (2 * residual X Y (φ x) (ψ x) r j * (-Z r k * V k j)) := by
    intro m Z V
    simp_rw [Finset.sum_comm (s := (Finset.univ : Finset (Fin m)))]
    rw [Finset.sum_comm]
    refine Finset.sum_congr rfl fun i _ => Finset.sum_congr rfl fun j _ => Finset.sum_congr rfl fun r _ => ?_
    ring
  rw [hc (fun r k => X r k) (fun i j => φ' i j v), hc (fun r k => Y r k) (fun i j => ψ' i j v)]
  rw [sub_eq_add_neg]
  congr 1
  simp only [← Finset.sum_neg_distrib]
  refine Finset.sum_congr rfl fun i _ => Finset.sum_congr rfl fun j _ => Finset.sum_congr rfl fun r _ => ?_
  ring

/-- A coordinate. -/
noncomputable def coord (N k : ℕ) : (Fin N → ℝ) →L[ℝ] ℝ :=
  if h : k < N then ContinuousLinearMap.proj ⟨k, h⟩ else 0

theorem coord_apply {N k : ℕ} (v : Fin N → ℝ) : coord N k v = (List.ofFn v).getD k 0 := by
  unfold coord
  split
  · rename_i h
    rw [getD_ofFn v h]
    rfl
  · rename_i h
    rw [List.getD_eq_getElem?_getD, List.getElem?_eq_none (by simpa using h)]
    rfl

theorem hasFDerivAt_getD {N : ℕ} (k : ℕ) (v : Fin N → ℝ) :
    HasFDerivAt (fun v : Fin N → ℝ => (List.ofFn v).getD k 0) (coord N k) v := by
  simp only [← coord_apply]
  exact (coord N k).hasFDerivAt

/-- The derivative of a weight. -/
noncomputable def weightCoord (d N k i j : ℕ) : (Fin N → ℝ) →L[ℝ] ℝ :=
  coord N (2 * k * d ^ 2 + i * d + j) - coord N ((2 * k + 1) * d ^ 2 + i * d + j)

theorem hasFDerivAt_weightOf {N : ℕ} (d k i j : ℕ) (v : Fin N → ℝ) :
    HasFDerivAt (fun v : Fin N → ℝ => weightOf d (List.ofFn v) k i j) (weightCoord d N k i j) v := by
  unfold weightOf weightCoord
  exact (hasFDerivAt_getD _ v).sub (hasFDerivAt_getD _ v)

theorem matW_eq (d : ℕ) (vec : List ℝ) (i j : Fin d) : matW d vec i j = weightOf d vec 0 i j := wMat_eq _ _ _ _

theorem matA_eq {d L : ℕ} (hd : d ≠ 0) (vec : List ℝ) (r : Fin L) (j : Fin d) :
    matA d L vec r j = weightOf d vec (r / d + 1) (r % d) j := by
  have := aMat_eq vec (r / d) (Nat.mod_lt r (by omega : d > 0)) j.2
  rw [Nat.div_add_mod'] at this
  exact this

/-- Sums over blocks. -/
theorem sum_blocks {M : Type} [AddCommMonoid M] (F : ℕ → M) (m n : ℕ) :
    ∑ k ∈ range (m * n), F k = ∑ b ∈ range m, ∑ c ∈ range n, F (b * n + c) := by
  induction m with
  | zero => simp
  | succ m ih => rw [Nat.succ_mul, Finset.sum_range_add, ih, Finset.sum_range_succ]

theorem sum_pairs {M : Type} [AddCommMonoid M] (F : ℕ → M) (p : ℕ) :
    ∑ b ∈ range (2 * p), F b = ∑ q ∈ range p, (F (2 * q) + F (2 * q + 1)) := by
  rw [Nat.mul_comm, sum_blocks F p 2]
  refine Finset.sum_congr rfl fun q _ => ?_
  rw [Finset.sum_range_succ, Finset.sum_range_one, Nat.mul_comm q 2, Nat.add_zero]

theorem sum_take (l : List ℝ) (m : ℕ) : (l.take m).sum = ∑ k ∈ range m, l.getD k 0 := by
  induction m generalizing l with
  | zero => simp
  | succ m ih =>
    cases l with
    | nil => simp
    | cons x l =>
      rw [List.take_succ_cons, List.sum_cons, ih, Finset.sum_range_succ', add_comm]
      simp

theorem sum_drop (l : List ℝ) {m n : ℕ} (h : l.length = m + n) :
    (l.drop m).sum = ∑ k ∈ range n, l.getD (m + k) 0 := by
  have h1 : (l.drop m).take n = l.drop m := List.take_of_length_le (by simp [h])
  rw [← h1, sum_take]
  refine Finset.sum_congr rfl fun k _ => ?_
  rw [List.getD_eq_getElem?_getD, List.getD_eq_getElem?_getD, List.getElem?_drop]

theorem flat_length {r d : ℕ} (M : Matrix (Fin r) (Fin d) ℝ) : (flat M).length = r * d := by
  rw [flat, List.length_ofFn]

theorem flat_getD {r d : ℕ} (M : Matrix (Fin r) (Fin d) ℝ) (i : Fin r) (j : Fin d) :
    (flat M).getD (i * d + j) 0 = M i j := by
  have hlt : (i : ℕ) * d + j < r * d := by
    have h1 : (i : ℕ) + 1 ≤ r := i.2
    have h2 := Nat.mul_le_mul_right d h1
    rw [Nat.add_mul, one_mul] at h2
    have := j.2
    omega
  rw [flat, getD_ofFn _ hlt]
  have h := finProdFinEquiv.symm_apply_apply (i, j)
  have e : finProdFinEquiv (i, j) = ⟨i * d + j, hlt⟩ := by
    apply Fin.ext
    rw [finProdFinEquiv_apply_val]
    simp only
    ring
  rw [e] at h
  have h1 : (⟨i * d + j, hlt⟩ : Fin (r * d)).divNat = i := (Prod.mk.inj h).1
  have h2 : (⟨i * d + j, hlt⟩ : Fin (r * d)).modNat = j := (Prod.mk.inj h).2
  rw [h1, h2]

/-- A sum over the entries of an array. -/
theorem sum_flat' {r d : ℕ} (M : Matrix (Fin r) (Fin d) ℝ) (V : ℕ → ℝ) :
    ∑ i, ∑ j, M i j * V (i * d + j) = ∑ c ∈ range (r * d), (flat M).getD c 0 * V c := by
  rw [sum_blocks, Finset.sum_range]
  refine Finset.sum_congr rfl fun i _ => ?_
  rw [Finset.sum_range]
  refine Finset.sum_congr rfl fun j _ => ?_
  rw [flat_getD]

/-- The vector of the gradient, made from the two flattened arrays. -/
def gradVec (lw la : ℝ) (d p : ℕ) (gw ga : List ℝ) : List ℝ :=
  (gw ++ gw.map (-·)).map (· + lw) ++ ((List.range p).flatMap fun q =>
    ((ga.drop (q * d ^ 2)).take (d ^ 2)) ++ ((ga.drop (q * d ^ 2)).take (d ^ 2)).map (-·)).map (· + la)

section
variable {lw la : ℝ} {d p : ℕ} {gw ga : List ℝ}

theorem gradVec_length (hw : gw.length = d ^ 2) (ha : ga.length = p * d ^ 2) :
    (gradVec lw la d p gw ga).length = 2 * (p + 1) * d ^ 2 := by
  have h : ∀ q ∈ List.range p, (((ga.drop (q * d ^ 2)).take (d ^ 2)) ++
      ((ga.drop (q * d ^ 2)).take (d ^ 2)).map (-·)).length = 2 * d ^ 2 := by
    intro q hq
    rw [List.mem_range] at hq
    have := Nat.mul_le_mul_right (d ^ 2) (Nat.succ_le_of_lt hq)
    rw [Nat.succ_mul] at this
    simp only [List.length_append, List.length_map, List.length_take, List.length_drop, ha]
    omega
  rw [gradVec, List.length_append, List.length_map, List.length_append, List.length_map, hw, List.length_map,
    List.length_flatMap, List.map_congr_left h, List.map_const', List.sum_replicate, List.length_range,
    smul_eq_mul]
  ring

theorem map_getD {l : List ℝ} {f : ℝ → ℝ} {k : ℕ} (h : k < l.length) : (l.map f).getD k 0 = f (l.getD k 0) := by
  rw [List.getD_eq_getElem _ _ (by simpa using h), List.getD_eq_getElem _ _ h, List.getElem_map]

theorem gradVec_zero (hw : gw.length = d ^ 2) {c : ℕ} (hc : c < d ^ 2) :
    (gradVec lw la d p gw ga).getD c 0 = gw.getD c 0 + lw := by
  rw [gradVec, List.getD_append _ _ _ _ (by simp; omega), map_getD (by simp; omega),
    List.getD_append _ _ _ _ (by omega)]

theorem gradVec_one (hw : gw.length = d ^ 2) {c : ℕ} (hc : c < d ^ 2) :
    (gradVec lw la d p gw ga).getD (d ^ 2 + c) 0 = -gw.getD c 0 + lw := by
  rw [gradVec, List.getD_append _ _ _ _ (by simp; omega), map_getD (by simp; omega),
    List.getD_append_right _ _ _ _ (by omega), hw, Nat.add_sub_cancel_left, map_getD (by omega)]

theorem flatMap_range_get' {α : Type} (f : ℕ → List α) (m n : ℕ) (hf : ∀ i < n, (f i).length = m) (i j : ℕ)
    (hi : i < n) (hj : j < m) : ((List.range n).flatMap f)[i * m + j]? = (f i)[j]? := by
  induction n generalizing i f with
  | zero => omega
  | succ n ih =>
    rw [List.range_succ_eq_map, List.flatMap_cons, List.flatMap_map]
    cases i with
    | zero => rw [Nat.zero_mul, Nat.zero_add, List.getElem?_append_left (by rw [hf 0 (by omega)]; exact hj)]
    | succ i =>
      rw [List.getElem?_append_right (by rw [hf 0 (by omega), Nat.succ_mul]; omega), hf 0 (by omega),
        show (i + 1) * m + j - m = i * m + j by rw [Nat.succ_mul]; omega]
      exact ih (fun i => f (i + 1)) (fun i hi => hf _ (by omega)) i (by omega)

theorem gradVec_succ (hw : gw.length = d ^ 2) (ha : ga.length = p * d ^ 2) {q c : ℕ} (hq : q < p)
    (hc : c < d ^ 2) :
    (gradVec lw la d p gw ga).getD (2 * (q + 1) * d ^ 2 + c) 0 = ga.getD (q * d ^ 2 + c) 0 + la ∧
    (gradVec lw la d p gw ga).getD ((2 * (q + 1) + 1) * d ^ 2 + c) 0 = -ga.getD (q * d ^ 2 + c) 0 + la := by
  have hl : ∀ q < p, ((ga.drop (q * d ^ 2)).take (d ^ 2)).length = d ^ 2 := by
    intro q hq
    have := Nat.mul_le_mul_right (d ^ 2) (Nat.succ_le_of_lt hq)
    rw [Nat.succ_mul] at this
    simp only [List.length_take, List.length_drop, ha]
    omega
  have hb : ∀ q < p, (((ga.drop (q * d ^ 2)).take (d ^ 2)) ++
      ((ga.drop (q * d ^ 2)).take (d ^ 2)).map (-·)).length = 2 * d ^ 2 := by
    intro q hq
    rw [List.length_append, List.length_map, hl q hq]
    omega
  have hrow : ((ga.drop (q * d ^ 2)).take (d ^ 2))[c]? = some (ga.getD (q * d ^ 2 + c) 0) := by
    rw [List.getElem?_take_of_lt hc, List.getElem?_drop]
    have := Nat.mul_le_mul_right (d ^ 2) (Nat.succ_le_of_lt hq)
    rw [Nat.succ_mul] at this
    have hlt : q * d ^ 2 + c < ga.length := by rw [ha]; omega
    rw [List.getD_eq_getElem _ _ hlt, List.getElem?_eq_getElem hlt]
  have hlen : ((gw ++ gw.map (-·)).map (· + lw)).length = 2 * d ^ 2 := by
    rw [List.length_map, List.length_append, List.length_map, hw]; omega
  have e1 : 2 * (q + 1) * d ^ 2 + c = 2 * d ^ 2 + (q * (2 * d ^ 2) + c) := by ring
  have e2 : (2 * (q + 1) + 1) * d ^ 2 + c = 2 * d ^ 2 + (q * (2 * d ^ 2) + (d ^ 2 + c)) := by ring
  rw [e1, e2, gradVec, List.getD_append_right _ _ _ _ (by omega), List.getD_append_right _ _ _ _ (by omega),
    hlen, Nat.add_sub_cancel_left, Nat.add_sub_cancel_left]
  constructor
  · rw [List.getD_eq_getElem?_getD, List.getElem?_map, flatMap_range_get' _ _ _ hb _ _ hq (by omega),
      List.getElem?_append_left (by rw [hl q hq]; exact hc), hrow]
    rfl
  · rw [List.getD_eq_getElem?_getD, List.getElem?_map, flatMap_range_get' _ _ _ hb _ _ hq (by omega),
      List.getElem?_append_right (by rw [hl q hq]; omega), hl q hq, Nat.add_sub_cancel_left, List.getElem?_map,
      hrow]
    rfl

/-- The directional derivative given by the gradient. -/
theorem gradVec_dot (hw : gw.length = d ^ 2) (ha : ga.length = p * d ^ 2) (U : ℕ → ℝ) :
    ∑ k ∈ range (2 * (p + 1) * d ^ 2), (gradVec lw la d p gw ga).getD k 0 * U k =
      (∑ c ∈ range (d ^ 2), gw.getD c 0 * (U c - U (d ^ 2 + c))) +
      (∑ m ∈ range (p * d ^ 2), ga.getD m 0 * (U (2 * (m / d ^ 2 + 1) * d ^ 2 + m % d ^ 2) -
        U ((2 * (m / d ^ 2 + 1) + 1) * d ^ 2 + m % d ^ 2))) +
      (lw * ∑ k ∈ range (2 * d ^ 2), U k + la * ∑ k ∈ range (2 * p * d ^ 2), U (2 * d ^ 2 + k)) := by
  have e1 : ∑ k ∈ range (2 * d ^ 2), U k = ∑ c ∈ range (d ^ 2), (U c + U (d ^ 2 + c)) := by
    rw [sum_blocks U 2 (d ^ 2), Finset.sum_range_succ, Finset.sum_range_one, ← Finset.sum_add_distrib]
    simp only [Nat.zero_mul, Nat.zero_add, Nat.one_mul]
  have e2 : ∑ k ∈ range (2 * p * d ^ 2), U (2 * d ^ 2 + k) = ∑ q ∈ range p, ∑ c ∈ range (d ^ 2),
      (U (2 * (q + 1) * d ^ 2 + c) + U ((2 * (q + 1) + 1) * d ^ 2 + c)) := by
    rw [sum_blocks (fun k => U (2 * d ^ 2 + k)) (2 * p) (d ^ 2), sum_pairs]
    refine Finset.sum_congr rfl fun q _ => ?_
    rw [← Finset.sum_add_distrib]
    refine Finset.sum_congr rfl fun c _ => ?_
    congr 2 <;> ring
  have e3 : (∑ m ∈ range (p * d ^ 2), ga.getD m 0 * (U (2 * (m / d ^ 2 + 1) * d ^ 2 + m % d ^ 2) -
        U ((2 * (m / d ^ 2 + 1) + 1) * d ^ 2 + m % d ^ 2))) = ∑ q ∈ range p, ∑ c ∈ range (d ^ 2),
      ga.getD (q * d ^ 2 + c) 0 * (U (2 * (q + 1) * d ^ 2 + c) - U ((2 * (q + 1) + 1) * d ^ 2 + c)) := by
    rw [sum_blocks]
    refine Finset.sum_congr rfl fun q _ => Finset.sum_congr rfl fun c hc => ?_
    rw [Finset.mem_range] at hc
    have h1 : (q * d ^ 2 + c) / d ^ 2 = q := by
      rw [Nat.add_comm, Nat.add_mul_div_right _ _ (by omega), Nat.div_eq_of_lt hc, Nat.zero_add]
    have h2 : (q * d ^ 2 + c) % d ^ 2 = c := by
      rw [Nat.add_comm, Nat.add_mul_mod_self_right, Nat.mod_eq_of_lt hc]
    rw [h1, h2]
  rw [e1, e2, e3, sum_blocks, sum_pairs, Finset.sum_range_succ', Finset.mul_sum, Finset.mul_sum,
    add_comm (∑ k ∈ range p, _)]
  have e4 : (∑ c ∈ range (d ^ 2), (gradVec lw la d p gw ga).getD (2 * 0 * d ^ 2 + c) 0 * U (2 * 0 * d ^ 2 + c)) +
      ∑ c ∈ range (d ^ 2), (gradVec lw la d p gw ga).getD ((2 * 0 + 1) * d ^ 2 + c) 0 *
        U ((2 * 0 + 1) * d ^ 2 + c) = (∑ c ∈ range (d ^ 2), gw.getD c 0 * (U c - U (d ^ 2 + c))) +
      ∑ c ∈ range (d ^ 2), lw * (U c + U (d ^ 2 + c)) := by
    simp only [← Finset.sum_add_distrib]
    refine Finset.sum_congr rfl fun c hc => ?_
    rw [Finset.mem_range] at hc
    simp only [Nat.mul_zero, Nat.zero_mul, Nat.zero_add, Nat.one_mul]
    rw [gradVec_zero hw hc, gradVec_one hw hc]
    ring
  have e5 : (∑ q ∈ range p, ((∑ c ∈ range (d ^ 2), (gradVec lw la d p gw ga).getD (2 * (q + 1) * d ^ 2 + c) 0 *
      U (2 * (q + 1) * d ^ 2 + c)) + ∑ c ∈ range (d ^ 2), (gradVec lw la d p gw ga).getD ((2 * (q + 1) + 1) * d ^ 2 + c) 0 *
      U ((2 * (q + 1) + 1) * d ^ 2 + c))) = (∑ q ∈ range p, ∑ c ∈ range (d ^ 2),
      ga.getD (q * d ^ 2 + c) 0 * (U (2 * (q + 1) * d ^ 2 + c) - U ((2 * (q + 1) + 1) * d ^ 2 + c))) +
      ∑ q ∈ range p, la * ∑ c ∈ range (d ^ 2), (U (2 * (q + 1) * d ^ 2 + c) + U ((2 * (q + 1) + 1) * d ^ 2 + c)) := by
    simp only [Finset.mul_sum, ← Finset.sum_add_distrib]
    refine Finset.sum_congr rfl fun q hq => Finset.sum_congr rfl fun c hc => ?_
    rw [Finset.mem_range] at hq hc
    obtain ⟨k1, k2⟩ := gradVec_succ (lw := lw) (la := la) hw ha hq hc
    rw [k1, k2]
    ring
  rw [e4, e5]
  ring

end

end

theorem problem_grad_eq (lambdaW lambdaA : ℝ) (X Xlags : Data ℝ) (rho alpha : ℝ) (vec : List ℝ) :
    (problem lambdaW lambdaA X Xlags).grad rho alpha vec = gradVec lambdaW lambdaA X.cols (Xlags.cols / X.cols)
      (flat (objGradW X.matrix (fun i j => (Xlags.entry i j).getD 0) rho alpha (matW X.cols vec)
        (matA X.cols Xlags.cols vec)))
      (flat (objGradA X.matrix (fun i j => (Xlags.entry i j).getD 0) (matW X.cols vec)
        (matA X.cols Xlags.cols vec))) := rfl

/-- **C71** for `from_numpy_dynamic`. -/
theorem problem_gradient (lambdaW lambdaA : ℝ) {X Xlags : Data ℝ} (hS : Shapes X Xlags) (rho alpha : ℝ) :
    IsGradient (2 * (Xlags.cols / X.cols + 1) * X.cols ^ 2) ((problem lambdaW lambdaA X Xlags).func rho alpha)
      ((problem lambdaW lambdaA X Xlags).grad rho alpha) := by
  obtain ⟨-, hd, -, -, p, hp⟩ := hS
  have hdp : Xlags.cols / X.cols = p := by rw [hp]; exact Nat.mul_div_cancel_left p (by omega)
  have hL : Xlags.cols * X.cols = p * X.cols ^ 2 := by rw [hp]; ring
  rw [hdp]
  set N := 2 * (p + 1) * X.cols ^ 2 with hN
  have hNs : N = 2 * X.cols ^ 2 + 2 * p * X.cols ^ 2 := by rw [hN]; ring
  let Y : Matrix (Fin X.rows) (Fin Xlags.cols) ℝ := fun i j => (Xlags.entry i j).getD 0
  have hlen : ∀ v : Fin N → ℝ, ((problem lambdaW lambdaA X Xlags).grad rho alpha (List.ofFn v)).length = N := by
    intro v
    rw [problem_grad_eq, hdp]
    exact gradVec_length (by rw [flat_length, sq]) (by rw [flat_length, hL])
  refine ⟨fun v => lossDyn X.matrix Y (matW X.cols (List.ofFn v)) (matA X.cols Xlags.cols (List.ofFn v)) +
      0.5 * rho * expScore (matW X.cols (List.ofFn v)) * expScore (matW X.cols (List.ofFn v)) +
      alpha * expScore (matW X.cols (List.ofFn v)) + (lambdaW * ((List.ofFn v).take (2 * X.cols ^ 2)).sum +
        lambdaA * ((List.ofFn v).drop (2 * X.cols ^ 2)).sum),
    fun v k => ((problem lambdaW lambdaA X Xlags).grad rho alpha (List.ofFn v)).getD k 0, fun v => rfl, ?_, ?_⟩
  · intro v
    refine List.ext_getElem (by rw [hlen, List.length_ofFn]) fun k h1 h2 => ?_
    rw [List.getElem_ofFn]
    exact (List.getD_eq_getElem _ _ h1).symm
  · intro v
    have hW : ∀ i j, HasFDerivAt (fun v : Fin N → ℝ => matW X.cols (List.ofFn v) i j) (weightCoord X.cols N 0 i j) v := by
      intro i j
      simp only [matW_eq]
      exact hasFDerivAt_weightOf _ _ _ _ v
    have hA : ∀ r j, HasFDerivAt (fun v : Fin N → ℝ => matA X.cols Xlags.cols (List.ofFn v) r j)
        (weightCoord X.cols N (r / X.cols + 1) (r % X.cols) j) v := by
      intro i j
      simp only [matA_eq hd]
      exact hasFDerivAt_weightOf _ _ _ _ v
    have h1 := hasFDerivAt_lossDyn X.matrix Y hW hA
    have h2 := hasFDerivAt_expScore hW
    have h3 : HasFDerivAt (fun v : Fin N → ℝ => ((List.ofFn v).take (2 * X.cols ^ 2)).sum)
        (∑ k ∈ range (2 * X.cols ^ 2), coord N k) v := by
      simp only [sum_take]
      exact HasFDerivAt.fun_sum fun k _ => hasFDerivAt_getD k v
    have h4 : HasFDerivAt (fun v : Fin N → ℝ => ((List.ofFn v).drop (2 * X.cols ^ 2)).sum)
        (∑ k ∈ range (2 * p * X.cols ^ 2), coord N (2 * X.cols ^ 2 + k)) v := by
      have : ∀ v : Fin N → ℝ, ((List.ofFn v).drop (2 * X.cols ^ 2)).sum =
          ∑ k ∈ range (2 * p * X.cols ^ 2), (List.ofFn v).getD (2 * X.cols ^ 2 + k) 0 :=
        fun v => sum_drop _ (by rw [List.length_ofFn, hNs])
      simp only [this]
      exact HasFDerivAt.fun_sum fun k _ => hasFDerivAt_getD _ v
    have h5 := ((h1.add ((h2.const_mul (0.5 * rho)).mul h2)).add (h2.const_mul alpha)).add
      ((h3.const_mul lambdaW).add (h4.const_mul lambdaA))
    refine HasFDerivAt.congr_fderiv h5 ?_
    ext u
    have hR : (∑ k : Fin N, ((problem lambdaW lambdaA X Xlags).grad rho alpha (List.ofFn v)).getD k 0 •
        (ContinuousLinearMap.proj k : (Fin N → ℝ) →L[ℝ] ℝ)) u = ∑ k ∈ range N,
        ((problem lambdaW lambdaA X Xlags).grad rho alpha (List.ofFn v)).getD k 0 * (List.ofFn u).getD k 0 := by
      rw [Finset.sum_range]
      simp only [ContinuousLinearMap.sum_apply, ContinuousLinearMap.smul_apply, ContinuousLinearMap.proj_apply,
        smul_eq_mul, getD_ofFn u (Fin.isLt _)]
    rw [hR, problem_grad_eq, hdp, gradVec_dot (by rw [flat_length, sq]) (by rw [flat_length, hL]), ← hL,
      sq X.cols, ← sum_flat' _ (fun c => (List.ofFn u).getD c 0 - (List.ofFn u).getD (X.cols * X.cols + c) 0),
      ← sum_flat' _ (fun m => (List.ofFn u).getD (2 * (m / (X.cols * X.cols) + 1) * (X.cols * X.cols) + m % (X.cols * X.cols)) 0 -
        (List.ofFn u).getD ((2 * (m / (X.cols * X.cols) + 1) + 1) * (X.cols * X.cols) + m % (X.cols * X.cols)) 0)]
    have hdiv : ∀ (r : Fin Xlags.cols) (j : Fin X.cols), ((r : ℕ) * X.cols + j) / (X.cols * X.cols) = r / X.cols ∧
        ((r : ℕ) * X.cols + j) % (X.cols * X.cols) = (r % X.cols) * X.cols + j := by
      intro r j
      have h1 : ((r : ℕ) * X.cols + j) / X.cols = r := by
        rw [Nat.add_comm, Nat.add_mul_div_right _ _ (by omega), Nat.div_eq_of_lt j.2, Nat.zero_add]
      have h2 : ((r : ℕ) * X.cols + j) % X.cols = j := by
        rw [Nat.add_comm, Nat.add_mul_mod_self_right, Nat.mod_eq_of_lt j.2]
      refine ⟨by rw [← Nat.div_div_eq_div_mul, h1], ?_⟩
      rw [Nat.mod_mul, h1, h2]
      ring
    simp only [(hdiv _ _).1, (hdiv _ _).2]
    have hwc : ∀ k i j, weightCoord X.cols N k i j u =
        (List.ofFn u).getD (2 * k * (X.cols * X.cols) + (i * X.cols + j)) 0 -
          (List.ofFn u).getD ((2 * k + 1) * (X.cols * X.cols) + (i * X.cols + j)) 0 := by
      intro k i j
      rw [weightCoord, ContinuousLinearMap.sub_apply, coord_apply, coord_apply, sq, Nat.add_assoc, Nat.add_assoc]
    simp only [ContinuousLinearMap.add_apply, ContinuousLinearMap.smul_apply, smul_eq_mul,
      ContinuousLinearMap.sum_apply, hwc, coord_apply, objGradW, Matrix.add_apply, Matrix.map_apply,
      Matrix.hadamard_apply, Matrix.smul_apply, Matrix.transpose_apply, Nat.mul_zero, Nat.zero_mul,
      Nat.zero_add, Nat.one_mul]
    congr 1
    rw [add_right_comm _ (∑ x : Fin Xlags.cols, _), add_right_comm _ (∑ x : Fin Xlags.cols, _)]
    congr 1
    simp only [Finset.mul_sum, ← Finset.sum_add_distrib]
    refine Finset.sum_congr rfl fun i _ => Finset.sum_congr rfl fun j _ => ?_
    unfold expScore
    simp only [Fintype.card_fin]
    have e1 : (0.5 : ℝ) = 1 / 2 := by norm_num
    rw [e1]
    generalize (-1.0 / (X.rows : ℝ)) = c
    ring

theorem problem_finite (lambdaW lambdaA : ℝ) (X Xlags : Data ℝ) :
    FiniteScores (problem lambdaW lambdaA X Xlags) := fun _ => WithTop.coe_ne_top

/-! ### When the learned graph is acyclic -/

/-- **C72** for `from_numpy_dynamic`: the warning is given exactly if the score of the instantaneous weights
found is above the tolerance. -/
theorem dynotears_warns_iff {minimize : Minimizer ℝ} {fuel : ℕ} {lambdaW lambdaA : ℝ} {X Xlags : Data ℝ}
    {a : Params ℝ ℕ} {g : Graph Str ℝ} {warned : Bool}
    (h : dynotears minimize fuel lambdaW lambdaA X Xlags a = .ok (g, warned)) (hmax : a.maxIter ≠ 0) :
    ∃ vec : List ℝ, (warned = true ↔ a.hTol < expScore fun i j : Fin X.cols => weightOf X.cols vec 0 i j) ∧
      IsDynGraph ((List.range X.cols).map natStr) (Xlags.cols / X.cols) (weightOf X.cols vec) a.wThreshold "unknown" g := by
  obtain ⟨hS, s, hs, hr⟩ := fromNumpyDynamicW_ok.1 h
  obtain ⟨rfl, rfl⟩ := Prod.mk.inj hr
  refine ⟨s.wEst, ?_, toGraph_dyn hS.2.1 _ _⟩
  have h1 := learnLoop_score hs hmax
  have hm : matW X.cols s.wEst = fun i j : Fin X.cols => weightOf X.cols s.wEst 0 i j := by
    ext i j
    exact matW_eq _ _ _ _
  have h3 : ((problem lambdaW lambdaA X Xlags).score s.wEst ≤ (a.hTol : WithTop ℝ)) ↔
      expScore (fun i j : Fin X.cols => weightOf X.cols s.wEst 0 i j) ≤ a.hTol := by
    rw [← hm]
    exact WithTop.coe_le_coe
  rw [← not_le, ← h3, ← h1]
  simp

/-- **C72** for `from_numpy_dynamic`: if no warning is given and the threshold is large enough for the
tolerance, the learned graph has no cycle. -/
theorem dynotears_acyclic {minimize : Minimizer ℝ} {fuel : ℕ} {lambdaW lambdaA : ℝ} {X Xlags : Data ℝ}
    {a : Params ℝ ℕ} {g : Graph Str ℝ}
    (h : dynotears minimize fuel lambdaW lambdaA X Xlags a = .ok (g, false)) (hmax : a.maxIter ≠ 0)
    (hthr : 0 ≤ a.wThreshold)
    (hk : ∀ k, 0 < k → k ≤ X.cols → ((k - 1).factorial : ℝ) * a.hTol < a.wThreshold ^ (2 * k)) :
    g.Acyclic := by
  obtain ⟨vec, hw, hg⟩ := dynotears_warns_iff h hmax
  have hscore : expScore (fun i j : Fin X.cols => weightOf X.cols vec 0 i j) ≤ a.hTol := by
    by_contra hn
    exact Bool.false_ne_true (hw.2 (not_le.1 hn))
  have hnd : ((List.range X.cols).map natStr).Nodup := List.nodup_range.map fun _ _ => natStr_inj
  refine (dyn_acyclic_weights hnd hg).2 ?_
  let W : Matrix (Fin X.cols) (Fin X.cols) ℝ := fun i j => weightOf X.cols vec 0 i j
  have hA := acyclic_of_score (d := X.cols)
    (g := ofMatrix X.cols fun i j => cutStrict a.wThreshold (weightOf X.cols vec 0 i j)) W
    (fun i j => a.wThreshold ≤ |W i j|) (by
      intro e he
      obtain ⟨h1, h2, h3, -⟩ := mem_ofMatrix.1 he
      exact ⟨h1, h2, (cutStrict_ne_zero.1 h3).2⟩) (by
      intro k f h0 hd hwalk
      calc ((k - 1).factorial : ℝ) * expScore W
          ≤ ((k - 1).factorial : ℝ) * a.hTol := mul_le_mul_of_nonneg_left hscore (by positivity)
        _ < a.wThreshold ^ (2 * k) := hk k h0 hd
        _ ≤ _ := prod_le hthr hwalk)
  intro i hi
  refine hA i (Relation.TransGen.mono ?_ i i hi)
  rintro u v ⟨h1, h2, h3, h4⟩
  simp only [List.length_map, List.length_range] at h1 h2
  have h5 := cutStrict_ne_zero.2 ⟨h3, h4⟩
  exact ⟨⟨u, v, cutStrict a.wThreshold (weightOf X.cols vec 0 u v), "unknown"⟩, mem_ofMatrix.2 ⟨h1, h2, h5, rfl, rfl⟩, rfl, rfl⟩

end Verif.Dynotears
