import Verif.Dynotears.Objective
import Verif.Notears.Moments
import Verif.Notears.Reorder

/-!
# What dynamic structure learning uses of the data (C114)

The learned graph depends on the data only through the mean products of pairs of columns, present and
past.  So the order of the time series, and the times at which they start, do not matter.
-/

namespace Verif.Dynotears

open Verif.Notears Verif.Str Matrix Finset

/-! ### Specification -/

/-- The mean, over the rows, of the products of the entries of column `j` of `X` and column `k` of `Y`. -/
noncomputable def crossMean (X Y : Data ℝ) (j k : ℕ) : ℝ :=
  (∑ i ∈ Finset.range X.rows, (X.entry i j).getD 0 * (Y.entry i k).getD 0) / X.rows

/-- Two pairs of arrays (present and past) that agree in the mean products of all pairs of columns. -/
structure MeanPairs (X Y X' Y' : Data ℝ) : Prop where
  rows : Y.rows = X.rows
  rows' : Y'.rows = X'.rows
  empty : X'.rows = 0 ↔ X.rows = 0
  cols : X'.cols = X.cols
  lags : Y'.cols = Y.cols
  present : ∀ j < X.cols, ∀ k < X.cols, crossMean X' X' j k = crossMean X X j k
  mixed : ∀ j < X.cols, ∀ k < Y.cols, crossMean X' Y' j k = crossMean X Y j k
  past : ∀ j < Y.cols, ∀ k < Y.cols, crossMean Y' Y' j k = crossMean Y Y j k

/-- The same for arrays of finite numbers. -/
structure SamePairs (X Y X' Y' : Data ℝ) : Prop extends MeanPairs X Y X' Y' where
  finite : X.finite = true ∧ Y.finite = true
  finite' : X'.finite = true ∧ Y'.finite = true

/-! ### The objective -/

section
variable {n n' d L : ℕ} (X : Matrix (Fin n) (Fin d) ℝ) (Y : Matrix (Fin n) (Fin L) ℝ)
  (X' : Matrix (Fin n') (Fin d) ℝ) (Y' : Matrix (Fin n') (Fin L) ℝ)

/-- The matrices of mean products agree. -/
structure Grams : Prop where
  xx : (n : ℝ)⁻¹ • (Xᵀ * X) = (n' : ℝ)⁻¹ • (X'ᵀ * X')
  xy : (n : ℝ)⁻¹ • (Xᵀ * Y) = (n' : ℝ)⁻¹ • (X'ᵀ * Y')
  yy : (n : ℝ)⁻¹ • (Yᵀ * Y) = (n' : ℝ)⁻¹ • (Y'ᵀ * Y')

theorem Grams.yx {X : Matrix (Fin n) (Fin d) ℝ} {Y : Matrix (Fin n) (Fin L) ℝ}
    {X' : Matrix (Fin n') (Fin d) ℝ} {Y' : Matrix (Fin n') (Fin L) ℝ} (h : Grams X Y X' Y') :
    (n : ℝ)⁻¹ • (Yᵀ * X) = (n' : ℝ)⁻¹ • (Y'ᵀ * X') := by
  have := congrArg Matrix.transpose h.xy
  simpa [Matrix.transpose_smul, Matrix.transpose_mul] using this

theorem gramX (W : Matrix (Fin d) (Fin d) ℝ) (A : Matrix (Fin L) (Fin d) ℝ) :
    (n : ℝ)⁻¹ • (Xᵀ * residual X Y W A) =
      ((n : ℝ)⁻¹ • (Xᵀ * X)) * (1 - W) - ((n : ℝ)⁻¹ • (Xᵀ * Y)) * A := by
  unfold residual
  rw [Matrix.mul_sub, smul_sub, ← Matrix.mul_assoc, ← Matrix.mul_assoc, Matrix.smul_mul, Matrix.smul_mul]

theorem gramY (W : Matrix (Fin d) (Fin d) ℝ) (A : Matrix (Fin L) (Fin d) ℝ) :
    (n : ℝ)⁻¹ • (Yᵀ * residual X Y W A) =
      ((n : ℝ)⁻¹ • (Yᵀ * X)) * (1 - W) - ((n : ℝ)⁻¹ • (Yᵀ * Y)) * A := by
  unfold residual
  rw [Matrix.mul_sub, smul_sub, ← Matrix.mul_assoc, ← Matrix.mul_assoc, Matrix.smul_mul, Matrix.smul_mul]

theorem lossDyn_gram (W : Matrix (Fin d) (Fin d) ℝ) (A : Matrix (Fin L) (Fin d) ℝ) :
    lossDyn X Y W A = 0.5 * trace ((1 - W)ᵀ * ((n : ℝ)⁻¹ • (Xᵀ * residual X Y W A)) -
      Aᵀ * ((n : ℝ)⁻¹ • (Yᵀ * residual X Y W A))) := by
  have h : ∑ i, ∑ j, (residual X Y W A i j) ^ 2 =
      trace ((residual X Y W A)ᵀ * residual X Y W A) := by
    rw [Finset.sum_comm]
    unfold trace
    refine Finset.sum_congr rfl fun j _ => ?_
    rw [Matrix.diag_apply, Matrix.mul_apply]
    refine Finset.sum_congr rfl fun i _ => ?_
    rw [Matrix.transpose_apply, sq]
  have hT : (residual X Y W A)ᵀ = (1 - W)ᵀ * Xᵀ - Aᵀ * Yᵀ := by
    unfold residual
    rw [Matrix.transpose_sub, Matrix.transpose_mul, Matrix.transpose_mul]
  unfold lossDyn
  rw [h]
  generalize residual X Y W A = R at *
  rw [hT, Matrix.sub_mul, Matrix.mul_smul, Matrix.mul_smul, ← smul_sub, Matrix.trace_smul, smul_eq_mul,
    Matrix.mul_assoc, Matrix.mul_assoc, div_eq_mul_inv, mul_assoc]

variable {X Y X' Y'}

theorem Grams.residualX (h : Grams X Y X' Y') (W : Matrix (Fin d) (Fin d) ℝ) (A : Matrix (Fin L) (Fin d) ℝ) :
    (n : ℝ)⁻¹ • (Xᵀ * residual X Y W A) = (n' : ℝ)⁻¹ • (X'ᵀ * residual X' Y' W A) := by
  rw [gramX, gramX, h.xx, h.xy]

theorem Grams.residualY (h : Grams X Y X' Y') (W : Matrix (Fin d) (Fin d) ℝ) (A : Matrix (Fin L) (Fin d) ℝ) :
    (n : ℝ)⁻¹ • (Yᵀ * residual X Y W A) = (n' : ℝ)⁻¹ • (Y'ᵀ * residual X' Y' W A) := by
  rw [gramY, gramY, h.yx, h.yy]

theorem lossDyn_congr (h : Grams X Y X' Y') (W : Matrix (Fin d) (Fin d) ℝ) (A : Matrix (Fin L) (Fin d) ℝ) :
    lossDyn X Y W A = lossDyn X' Y' W A := by
  rw [lossDyn_gram, lossDyn_gram, h.residualX, h.residualY]

theorem objGradW_congr (h : Grams X Y X' Y') (rho alpha : ℝ) (W : Matrix (Fin d) (Fin d) ℝ)
    (A : Matrix (Fin L) (Fin d) ℝ) : objGradW X Y rho alpha W A = objGradW X' Y' rho alpha W A := by
  unfold objGradW
  dsimp only
  rw [div_eq_mul_inv, div_eq_mul_inv, mul_smul, mul_smul, h.residualX]

theorem objGradA_congr (h : Grams X Y X' Y') (W : Matrix (Fin d) (Fin d) ℝ)
    (A : Matrix (Fin L) (Fin d) ℝ) : objGradA X Y W A = objGradA X' Y' W A := by
  unfold objGradA
  rw [div_eq_mul_inv, div_eq_mul_inv, mul_smul, mul_smul, h.residualY]

end

/-- The entries as a matrix. -/
noncomputable def numbers (r d : ℕ) (e : ℕ → ℕ → Option ℝ) : Matrix (Fin r) (Fin d) ℝ := fun i j => (e i j).getD 0

theorem crossMean_gram {r d L : ℕ} (e f : ℕ → ℕ → Option ℝ) (j : Fin d) (k : Fin L) :
    ((r : ℝ)⁻¹ • ((numbers r d e)ᵀ * numbers r L f)) j k = crossMean ⟨r, d, e⟩ ⟨r, L, f⟩ j k := by
  rw [Matrix.smul_apply, Matrix.mul_apply, smul_eq_mul, crossMean, div_eq_inv_mul]
  congr 1
  simp only [Matrix.transpose_apply]
  exact Fin.sum_univ_eq_sum_range (fun i => (e i j).getD 0 * (f i k).getD 0) r

theorem problem_pairs {X Y X' Y' : Data ℝ} (h : MeanPairs X Y X' Y') (lambdaW lambdaA : ℝ) :
    problem lambdaW lambdaA X' Y' = problem lambdaW lambdaA X Y := by
  obtain ⟨r, d, e⟩ := X
  obtain ⟨r2, L, f⟩ := Y
  obtain ⟨r', d', e'⟩ := X'
  obtain ⟨r2', L', f'⟩ := Y'
  obtain ⟨hr, hr', -, hd, hL, h1, h2, h3⟩ := h
  simp only at hd hL hr hr' h1 h2 h3
  subst hd hL hr hr'
  have hg : Grams (Data.matrix ⟨r2, d', e⟩) (fun (i : Fin r2) (j : Fin L') => (f i j).getD 0)
      (Data.matrix ⟨r2', d', e'⟩) (fun (i : Fin r2') (j : Fin L') => (f' i j).getD 0) := by
    refine ⟨?_, ?_, ?_⟩ <;> ext j k
    · exact (crossMean_gram e e j k).trans ((h1 j j.2 k k.2).symm.trans (crossMean_gram e' e' j k).symm)
    · exact (crossMean_gram e f j k).trans ((h2 j j.2 k k.2).symm.trans (crossMean_gram e' f' j k).symm)
    · exact (crossMean_gram f f j k).trans ((h3 j j.2 k k.2).symm.trans (crossMean_gram f' f' j k).symm)
  simp only [problem, Problem.mk.injEq]
  refine ⟨?_, ?_, trivial⟩
  · funext rho alpha vec
    congr 1
    funext a
    congr 3
    exact (lossDyn_congr hg _ _).symm
  · funext rho alpha vec
    rw [objGradW_congr hg, objGradA_congr hg]

theorem size_pairs {X Y X' Y' : Data ℝ} (h : MeanPairs X Y X' Y') :
    (X'.rows * X.cols = 0 ↔ X.rows * X.cols = 0) ∧ (X'.rows * Y.cols = 0 ↔ X.rows * Y.cols = 0) := by
  simp only [Nat.mul_eq_zero, h.empty, true_and]

theorem fromNumpy_pairs {X Y X' Y' : Data ℝ} (h : MeanPairs X Y X' Y') (P : Problem ℝ)
    (minimize : Minimizer ℝ) (fuel : ℕ) (a : Params ℝ ℕ) :
    fromNumpyDynamicW P minimize fuel X' Y' a = fromNumpyDynamicW P minimize fuel X Y a := by
  unfold fromNumpyDynamicW learnDynamic
  simp only [h.rows, h.rows', h.cols, h.lags, size_pairs h, ne_eq, not_true_eq_false, if_false]

/-- **C114** for `from_numpy_dynamic`: arrays with the same mean products of all pairs of columns, present
and past, give the same result, whatever the optimiser does. -/
theorem dynotears_products {X Y X' Y' : Data ℝ} (h : SamePairs X Y X' Y') (minimize : Minimizer ℝ)
    (fuel : ℕ) (lambdaW lambdaA : ℝ) (a : Params ℝ ℕ) :
    dynotears minimize fuel lambdaW lambdaA X' Y' a = dynotears minimize fuel lambdaW lambdaA X Y a := by
  unfold dynotears
  rw [problem_pairs h.toMeanPairs, fromNumpy_pairs h.toMeanPairs]

/-! ### Rows -/

/-- The rows are the same, up to their order and to repeating all of them equally often. -/
def SameRows {α : Type} (R R' : List α) : Prop :=
  ∃ m m' : ℕ, m ≠ 0 ∧ m' ≠ 0 ∧ ((List.replicate m R).flatten).Perm ((List.replicate m' R').flatten)

theorem sum_flatten_replicate {α : Type} (f : α → ℝ) (R : List α) (m : ℕ) :
    (((List.replicate m R).flatten).map f).sum = m * (R.map f).sum := by
  induction m with
  | zero => simp
  | succ m ih =>
    rw [List.replicate_succ, List.flatten_cons, List.map_append, List.sum_append, ih]
    push_cast
    ring

theorem SameRows.mean {α : Type} {R R' : List α} (h : SameRows R R') (f : α → ℝ) :
    (R'.map f).sum / R'.length = (R.map f).sum / R.length := by
  obtain ⟨m, m', hm, hm', hp⟩ := h
  have h1 := (hp.map f).sum_eq
  have h2 := hp.length_eq
  rw [sum_flatten_replicate, sum_flatten_replicate] at h1
  simp only [List.length_flatten, List.map_replicate, List.sum_replicate, smul_eq_mul] at h2
  have h2' : (m : ℝ) * R.length = m' * R'.length := by exact_mod_cast h2
  have hm1 : (m : ℝ) ≠ 0 := by exact_mod_cast hm
  have hm2 : (m' : ℝ) ≠ 0 := by exact_mod_cast hm'
  rw [← mul_div_mul_left _ _ hm2, ← h1, ← h2', mul_div_mul_left _ _ hm1]

theorem SameRows.empty {α : Type} {R R' : List α} (h : SameRows R R') : R'.length = 0 ↔ R.length = 0 := by
  obtain ⟨m, m', hm, hm', hp⟩ := h
  have h2 := hp.length_eq
  simp only [List.length_flatten, List.map_replicate, List.sum_replicate, smul_eq_mul] at h2
  constructor
  · intro h0
    rw [h0, Nat.mul_zero, Nat.mul_eq_zero] at h2
    exact h2.resolve_left hm
  · intro h0
    rw [h0, Nat.mul_zero] at h2
    exact (Nat.mul_eq_zero.1 h2.symm).resolve_left hm'

theorem sum_range_getElem? {α : Type} (R : List α) (f : Option α → ℝ) :
    ∑ i ∈ Finset.range R.length, f R[i]? = (R.map fun r => f (some r)).sum := by
  induction R with
  | nil => simp
  | cons r R ih =>
    rw [List.length_cons, Finset.sum_range_succ', List.map_cons, List.sum_cons, add_comm, ← ih]
    simp

theorem crossMean_rows {α : Type} (d L : ℕ) (R : List α) (f g : α → List ℝ) (j k : ℕ) :
    crossMean (toData d (R.map f)) (toData L (R.map g)) j k =
      (R.map fun r => ((f r)[j]?).getD 0 * ((g r)[k]?).getD 0).sum / R.length := by
  unfold crossMean toData
  simp only [List.length_map, List.getElem?_map]
  congr 1
  have := sum_range_getElem? R fun r => ((r.map f).bind fun r => r[j]?).getD 0 *
    ((r.map g).bind fun r => r[k]?).getD 0
  simpa using this

/-- Rows that are the same give the same mean products. -/
theorem meanPairs_rows {X Y X' Y' : List (List ℝ)} (d L : ℕ) (hl : X.length = Y.length)
    (hl' : X'.length = Y'.length) (h : SameRows (X.zip Y) (X'.zip Y')) :
    MeanPairs (toData d X) (toData L Y) (toData d X') (toData L Y') := by
  have e1 : X = (X.zip Y).map Prod.fst := (List.map_fst_zip hl.le).symm
  have e2 : Y = (X.zip Y).map Prod.snd := (List.map_snd_zip hl.ge).symm
  have e1' : X' = (X'.zip Y').map Prod.fst := (List.map_fst_zip hl'.le).symm
  have e2' : Y' = (X'.zip Y').map Prod.snd := (List.map_snd_zip hl'.ge).symm
  rw [e1, e2, e1', e2']
  simp only [← e1, ← e2, ← e1', ← e2']
  generalize X.zip Y = R at *
  generalize X'.zip Y' = R' at *
  subst e1 e2 e1' e2'
  refine ⟨by simp [toData], by simp [toData], by simpa [toData] using h.empty, rfl, rfl, ?_, ?_, ?_⟩
  all_goals
    intro j _ k _
    rw [crossMean_rows, crossMean_rows]
    exact h.mean _

/-! ### Data frames -/

section
variable {T : Type} [DecidableEq T] (minimize : Minimizer ℝ) (fuel : ℕ) (lambdaW lambdaA : ℝ)

/-- `from_pandas_dynamic` with its objective. -/
noncomputable def dynotearsFrames (numeric : T → Bool) (ts : List (Transform.Entry Str T ℝ)) (p : ℕ)
    (a : Params ℝ Str) : Except Err (Graph Str ℝ) :=
  fromPandasDynamic (problem lambdaW lambdaA) minimize fuel numeric ts p a

theorem fromArrays_pairs {X Y X' Y' : Data ℝ} (h : MeanPairs X Y X' Y') (cols : List Str) (p : ℕ)
    (a : Params ℝ Str) :
    fromArrays (problem lambdaW lambdaA) minimize fuel cols p X' Y' a =
      fromArrays (problem lambdaW lambdaA) minimize fuel cols p X Y a := by
  unfold fromArrays fromNumpyDynamic
  simp only [problem_pairs h, fromNumpy_pairs h]

/-- The rows, present and past, that come from one data frame. -/
def frameRows (p : ℕ) (cols : List Str) (t : Transform.Frame Str T ℝ) : List (List ℝ × List ℝ) :=
  (Transform.cut t.index (t.rows.map fun r => cols.map r)).flatMap (Transform.windows p)

theorem frames_map {ts : List (Transform.Entry Str T ℝ)} (h : ∀ e ∈ ts, ∃ t, e = .frame t) :
    ts = (Transform.framesOf ts).map .frame := by
  induction ts with
  | nil => rfl
  | cons e ts ih =>
    obtain ⟨t, rfl⟩ := h e (by simp)
    rw [Transform.framesOf, List.filterMap_cons, List.map_cons, ← Transform.framesOf,
      ← ih fun e he => h e (by simp [he])]

/-- Learning is from the rows of all frames. -/
theorem frames_rows (numeric : T → Bool) {ts : List (Transform.Entry Str T ℝ)} {p : ℕ} (hp : p ≠ 0)
    (a : Params ℝ Str) {df : Transform.Frame Str T ℝ} {rest : List (Transform.Entry Str T ℝ)}
    (hts : ts = .frame df :: rest) (hg : Transform.Good numeric none ts) :
    ∃ X Xlags : List (List ℝ), X.length = Xlags.length ∧
      X.zip Xlags = (Transform.framesOf ts).flatMap (frameRows p df.cols) ∧
      dynotearsFrames minimize fuel lambdaW lambdaA numeric ts p a =
        fromArrays (problem lambdaW lambdaA) minimize fuel df.cols p (toData df.cols.length X)
          (toData (p * df.cols.length) Xlags) a := by
  have hall : ∀ e ∈ ts, ∃ t, e = .frame t := by
    obtain ⟨df, rest, -, h⟩ := hg
    intro e he
    obtain ⟨t, ht, -⟩ := h e he
    exact ⟨t, ht⟩
  have hfit := Transform.fit_ok_iff numeric ({ p := p } : Transform.Trans Str) ts false
  have hf := hfit.1.2 hg
  have hs := hfit.2.1 df rest hts hf
  have hg' : Transform.Good numeric (some df.cols) ts := by
    obtain ⟨df', rest', h1, h2⟩ := hg
    have : df' = df := by
      rw [hts] at h1
      simpa using (List.cons.inj h1).1.symm
    subst this
    refine ⟨df', rest', h1, fun e he => ?_⟩
    obtain ⟨t, q1, q2, q3, q4, q5, q6, -⟩ := h2 e he
    refine ⟨t, q1, q2, q3, q4, q5, q6, ?_⟩
    intro cs hcs c hc
    cases hcs
    rw [q3]
    exact hc
  obtain ⟨X, Xlags, hc, hlen, -, hzip⟩ := Transform.convert_correct hp
    (Transform.cutAll_ne_nil (ts := ts.map (Transform.select df.cols)) (by rw [hts]; simp))
  refine ⟨X, Xlags, hlen, ?_, ?_⟩
  · rw [hzip, frames_map hall]
    rw [Transform.cutAll, List.map_map, List.flatMap_map, List.flatMap_assoc, ← frames_map hall]
    rfl
  · have htr : Transform.transform numeric (⟨p, some df.cols, some false⟩ : Transform.Trans Str) ts =
        .ok (.arrays X Xlags) := by
      rw [Transform.transform]
      simp only
      rw [(Transform.checkInput_ok _ _ _).2 hg']
      simp only [hc]
      rw [if_neg (by simp)]
    unfold dynotearsFrames fromPandasDynamic
    simp only
    rw [hf, hs]
    simp only [htr]
    subst hts
    rfl

/-- **C114**: lists of data frames that lead to the same rows, up to their order and common repetition, give
the same result. -/
theorem frames_same_rows (numeric : T → Bool) {ts ts' : List (Transform.Entry Str T ℝ)} {p : ℕ} (hp : p ≠ 0)
    (a : Params ℝ Str) {df df' : Transform.Frame Str T ℝ} {rest rest' : List (Transform.Entry Str T ℝ)}
    (hts : ts = .frame df :: rest) (hts' : ts' = .frame df' :: rest') (hg : Transform.Good numeric none ts)
    (hg' : Transform.Good numeric none ts') (hcols : df'.cols = df.cols)
    (h : SameRows ((Transform.framesOf ts).flatMap (frameRows p df.cols))
      ((Transform.framesOf ts').flatMap (frameRows p df.cols))) :
    dynotearsFrames minimize fuel lambdaW lambdaA numeric ts' p a =
      dynotearsFrames minimize fuel lambdaW lambdaA numeric ts p a := by
  obtain ⟨X, Y, h1, h2, h3⟩ := frames_rows minimize fuel lambdaW lambdaA numeric hp a hts hg
  obtain ⟨X', Y', h1', h2', h3'⟩ := frames_rows minimize fuel lambdaW lambdaA numeric hp a hts' hg'
  rw [hcols] at h2' h3'
  rw [h3, h3']
  apply fromArrays_pairs
  apply meanPairs_rows _ _ h1 h1'
  rw [h2, h2']
  exact h

theorem sameRows_of_perm {α : Type} {R R' : List α} (h : R.Perm R') : SameRows R R' :=
  ⟨1, 1, by simp, by simp, by simpa using h⟩

/-- Whether a list of data frames is accepted does not depend on the order. -/
theorem good_perm {numeric : T → Bool} {ts ts' : List (Transform.Entry Str T ℝ)} (h : ts.Perm ts')
    (hg : Transform.Good numeric none ts) : Transform.Good numeric none ts' := by
  obtain ⟨df, rest, h1, h2⟩ := hg
  cases ts' with
  | nil =>
    rw [h1] at h
    exact absurd h.length_eq (by simp)
  | cons e ts' =>
    obtain ⟨t, rfl, -, hc, hd, -⟩ := h2 e (h.mem_iff.2 (by simp))
    refine ⟨t, ts', rfl, fun e he => ?_⟩
    obtain ⟨t', q1, q2, q3, q4, q5, q6, -⟩ := h2 e (h.mem_iff.2 he)
    exact ⟨t', q1, q2, q3.trans hc.symm, q4.trans hd.symm, q5, q6, by simp⟩

theorem frames_error (numeric : T → Bool) (ts : List (Transform.Entry Str T ℝ)) (p : ℕ)
    (a : Params ℝ Str) (hg : ¬ Transform.Good numeric none ts) :
    ∃ e, dynotearsFrames minimize fuel lambdaW lambdaA numeric ts p a = .error e := by
  have hfit := Transform.fit_ok_iff numeric ({ p := p } : Transform.Trans Str) ts false
  unfold dynotearsFrames fromPandasDynamic
  simp only
  cases hf : (Transform.fit numeric ({ p := p } : Transform.Trans Str) ts false).2 with
  | ok u => exact absurd (hfit.1.1 hf) hg
  | error e => exact ⟨_, rfl⟩

/-- **C114**: the order in which the time series are given does not matter. -/
theorem frames_order (numeric : T → Bool) {ts ts' : List (Transform.Entry Str T ℝ)} (h : ts.Perm ts')
    (p : ℕ) (a : Params ℝ Str) (g : Graph Str ℝ) :
    dynotearsFrames minimize fuel lambdaW lambdaA numeric ts' p a = .ok g ↔
      dynotearsFrames minimize fuel lambdaW lambdaA numeric ts p a = .ok g := by
  by_cases hg : Transform.Good numeric none ts
  · by_cases hp : p = 0
    · subst hp
      obtain ⟨e, he⟩ := fromPandasDynamic_zero (problem lambdaW lambdaA) minimize fuel numeric ts a
      obtain ⟨e', he'⟩ := fromPandasDynamic_zero (problem lambdaW lambdaA) minimize fuel numeric ts' a
      unfold dynotearsFrames
      rw [he, he']
      simp
    · have hg' := good_perm h hg
      obtain ⟨df, rest, h1, h2⟩ := hg
      obtain ⟨df', rest', h1', h2'⟩ := hg'
      have hg : Transform.Good numeric none ts := ⟨df, rest, h1, h2⟩
      have hg' : Transform.Good numeric none ts' := ⟨df', rest', h1', h2'⟩
      have hc : df'.cols = df.cols := by
        obtain ⟨t, q1, -, q3, -⟩ := h2 (.frame df') (h.mem_iff.2 (by rw [h1']; simp))
        cases q1
        exact q3
      rw [frames_same_rows minimize fuel lambdaW lambdaA numeric hp a h1 h1' hg hg' hc
        (sameRows_of_perm ?_)]
      exact (h.filterMap _).flatMap_right _
  · have hg' : ¬ Transform.Good numeric none ts' := fun h' => hg (good_perm h.symm h')
    obtain ⟨e, he⟩ := frames_error minimize fuel lambdaW lambdaA numeric ts p a hg
    obtain ⟨e', he'⟩ := frames_error minimize fuel lambdaW lambdaA numeric ts' p a hg'
    rw [he, he']
    simp

theorem framesOf_flatten (ts : List (Transform.Entry Str T ℝ)) (m : ℕ) :
    Transform.framesOf ((List.replicate m ts).flatten) = (List.replicate m (Transform.framesOf ts)).flatten := by
  induction m with
  | zero => rfl
  | succ m ih =>
    rw [List.replicate_succ, List.flatten_cons, List.replicate_succ, List.flatten_cons, ← ih]
    exact List.filterMap_append

theorem flatMap_replicate {α β : Type} (f : α → List β) (l : List α) (m : ℕ) :
    ((List.replicate m l).flatten).flatMap f = (List.replicate m (l.flatMap f)).flatten := by
  induction m with
  | zero => rfl
  | succ m ih =>
    rw [List.replicate_succ, List.flatten_cons, List.replicate_succ, List.flatten_cons, ← ih,
      List.flatMap_append]

/-- **C114**: giving the whole list of time series several times does not matter. -/
theorem frames_repeated (numeric : T → Bool) {ts : List (Transform.Entry Str T ℝ)} {p : ℕ} (hp : p ≠ 0)
    (a : Params ℝ Str) (hg : Transform.Good numeric none ts) {m : ℕ} (hm : m ≠ 0) :
    dynotearsFrames minimize fuel lambdaW lambdaA numeric (List.replicate m ts).flatten p a =
      dynotearsFrames minimize fuel lambdaW lambdaA numeric ts p a := by
  obtain ⟨df, rest, h1, h2⟩ := id hg
  obtain ⟨k, rfl⟩ := Nat.exists_eq_succ_of_ne_zero hm
  have h1' : (List.replicate (k + 1) ts).flatten = .frame df :: (rest ++ (List.replicate k ts).flatten) := by
    rw [List.replicate_succ, List.flatten_cons]
    conv_lhs => rw [h1]
    rw [List.cons_append, h1]
  refine frames_same_rows minimize fuel lambdaW lambdaA numeric hp a h1 h1' hg ⟨df, _, h1', fun e he => ?_⟩
    rfl ?_
  · obtain ⟨l, hl, he⟩ := List.mem_flatten.1 he
    rw [List.eq_of_mem_replicate hl] at he
    exact h2 e he
  · refine ⟨k + 1, 1, hm, by simp, ?_⟩
    rw [framesOf_flatten, flatMap_replicate]
    simp

/-- `t'` is `t` with all times moved by the same number. -/
def Shifted (t t' : Transform.Frame Str T ℝ) : Prop :=
  ∃ c : ℤ, t' = { t with index := t.index.map (· + c) }

theorem cutPoints_shift (c : ℤ) (i : ℕ) (l : List ℤ) :
    Transform.cutPoints i (l.map (· + c)) = Transform.cutPoints i l := by
  induction l generalizing i with
  | nil => rfl
  | cons x l ih =>
    cases l with
    | nil => rfl
    | cons y l =>
      have := ih (i + 1)
      simp only [List.map_cons] at this ⊢
      rw [Transform.cutPoints, Transform.cutPoints, this]
      simp only [add_sub_add_right_eq_sub]

theorem frameRows_shift {t t' : Transform.Frame Str T ℝ} (h : Shifted t t') (p : ℕ) (cols : List Str) :
    frameRows p cols t' = frameRows p cols t := by
  obtain ⟨c, rfl⟩ := h
  unfold frameRows Transform.cut
  simp only [cutPoints_shift, List.length_map]

/-- **C114**: the times at which the series start do not matter, only the steps between their times. -/
theorem frames_shifted (numeric : T → Bool) {fs fs' : List (Transform.Frame Str T ℝ)} {p : ℕ} (hp : p ≠ 0)
    (a : Params ℝ Str) (h : List.Forall₂ Shifted fs fs')
    (hg : Transform.Good numeric none (fs.map .frame)) :
    dynotearsFrames minimize fuel lambdaW lambdaA numeric (fs'.map .frame) p a =
      dynotearsFrames minimize fuel lambdaW lambdaA numeric (fs.map .frame) p a := by
  have hfr : ∀ l : List (Transform.Frame Str T ℝ), Transform.framesOf (l.map .frame) = l := by
    intro l
    induction l with
    | nil => rfl
    | cons t l ih =>
      rw [List.map_cons, Transform.framesOf, List.filterMap_cons, ← Transform.framesOf, ih]
  obtain ⟨df, rest, h1, h2⟩ := id hg
  cases h with
  | nil => simp at h1
  | @cons t t' fs fs' ht hfs =>
    have e1 : df = t := by
      have := (List.cons.inj h1).1
      simpa using this.symm
    subst e1
    have hcols : t'.cols = df.cols := by
      obtain ⟨c, rfl⟩ := ht
      rfl
    refine frames_same_rows minimize fuel lambdaW lambdaA numeric hp a (List.map_cons ..) (List.map_cons ..)
      hg ⟨t', _, List.map_cons .., fun e he => ?_⟩ hcols (sameRows_of_perm ?_)
    · obtain ⟨u', hu', rfl⟩ := List.mem_map.1 he
      obtain ⟨u, hu, c, rfl⟩ := forall₂_mem_right (.cons ht hfs) hu'
      obtain ⟨v, hv, q2, q3, q4, q5, q6, -⟩ := h2 (.frame u) (List.mem_map_of_mem hu)
      cases hv
      obtain ⟨c', rfl⟩ := ht
      refine ⟨_, rfl, q2, q3, q4, ?_, q6, by simp⟩
      rw [List.pairwise_map]
      exact q5.imp (fun h => by omega)
    · rw [hfr, hfr]
      have : ∀ {l l' : List (Transform.Frame Str T ℝ)}, List.Forall₂ Shifted l l' →
          l.flatMap (frameRows p df.cols) = l'.flatMap (frameRows p df.cols) := by
        intro l l' hl
        induction hl with
        | nil => rfl
        | cons h1 _ ih => rw [List.flatMap_cons, List.flatMap_cons, ih, frameRows_shift h1]
      rw [this (.cons ht hfs)]

theorem cutRec_append {α : Type} {l l' : List (ℤ × α)} (hl : l ≠ []) (hl' : l' ≠ [])
    (h : ∀ x ∈ l.getLast?, ∀ y ∈ l'.head?, 1 < y.1 - x.1) :
    Transform.cutRec (l ++ l') = Transform.cutRec l ++ Transform.cutRec l' := by
  induction l with
  | nil => exact absurd rfl hl
  | cons x l ih =>
    cases l with
    | nil =>
      cases l' with
      | nil => exact absurd rfl hl'
      | cons y l' =>
        have := h x (by simp) y (by simp)
        change Transform.cutRec (x :: y :: l') = [x] :: Transform.cutRec (y :: l')
        rw [Transform.cutRec, if_pos (by omega)]
    | cons z l =>
      have h2 := ih (by simp) (by simpa using h)
      rw [List.cons_append, List.cons_append, Transform.cutRec, ← List.cons_append, h2]
      obtain ⟨q, qs, hq⟩ := Transform.cutRec_head z l
      rw [Transform.cutRec, hq]
      split <;> rfl

/-- One series after another, in one data frame. -/
def joined (t t' : Transform.Frame Str T ℝ) : Transform.Frame Str T ℝ :=
  { t with index := t.index ++ t'.index, rows := t.rows ++ t'.rows }

/-- There is a gap between the series: the second starts more than one step after the end of the first. -/
def Gap (t t' : Transform.Frame Str T ℝ) : Prop :=
  ∀ x ∈ t.index.getLast?, ∀ y ∈ t'.index.head?, x + 1 < y

theorem frameRows_joined {t t' : Transform.Frame Str T ℝ} (h : Gap t t')
    (hl : t.index.length = t.rows.length) (hl' : t'.index.length = t'.rows.length) (p : ℕ) (cols : List Str) :
    frameRows p cols (joined t t') = frameRows p cols t ++ frameRows p cols t' := by
  have hz : ∀ u : Transform.Frame Str T ℝ, u.index.length = u.rows.length → frameRows p cols u =
      (Transform.cutRec (u.obs cols)).flatMap fun q => Transform.windows p (q.map Prod.snd) := by
    intro u hu
    unfold frameRows
    rw [Transform.cut_eq_cutRec _ _ (by simpa using hu), List.flatMap_map]
    rfl
  have hj : (joined t t').obs cols = t.obs cols ++ t'.obs cols := by
    unfold Transform.Frame.obs joined
    simp only [List.map_append]
    exact List.zip_append (by simpa using hl)
  have h0 : ∀ u : Transform.Frame Str T ℝ, u.obs cols = [] →
      ((Transform.cutRec (u.obs cols)).flatMap fun q => Transform.windows p (q.map Prod.snd)) = [] := by
    intro u hu
    rw [hu]
    simp [Transform.cutRec, Transform.windows]
  rw [hz _ (by simp [joined, hl, hl']), hz t hl, hz t' hl', hj]
  by_cases h1 : t.obs cols = []
  · rw [h0 t h1, h1]
    rfl
  by_cases h2 : t'.obs cols = []
  · rw [h0 t' h2, h2, List.append_nil, List.append_nil]
  rw [cutRec_append h1 h2, List.flatMap_append]
  have hi : ∀ u : Transform.Frame Str T ℝ, u.index.length = u.rows.length →
      (u.obs cols).map Prod.fst = u.index := fun u hu => List.map_fst_zip (by simpa using hu.le)
  intro x hx y hy
  have hx' : x.1 ∈ t.index.getLast? := by
    rw [← hi t hl, List.getLast?_map]
    exact Option.mem_map_of_mem _ hx
  have hy' : y.1 ∈ t'.index.head? := by
    rw [← hi t' hl', List.head?_map]
    exact Option.mem_map_of_mem _ hy
  have := h _ hx' _ hy'
  omega

/-- **C114**: it does not matter whether a series with a gap is given in one data frame or in two. -/
theorem frames_split (numeric : T → Bool) {pre post : List (Transform.Entry Str T ℝ)}
    {t t' : Transform.Frame Str T ℝ} {p : ℕ} (hp : p ≠ 0) (a : Params ℝ Str) (h : Gap t t')
    (hl : t.index.length = t.rows.length) (hl' : t'.index.length = t'.rows.length)
    (hg : Transform.Good numeric none (pre ++ .frame t :: .frame t' :: post)) :
    dynotearsFrames minimize fuel lambdaW lambdaA numeric (pre ++ .frame (joined t t') :: post) p a =
      dynotearsFrames minimize fuel lambdaW lambdaA numeric (pre ++ .frame t :: .frame t' :: post) p a := by
  obtain ⟨df, rest, h1, h2⟩ := id hg
  have hj : ∃ df' rest', pre ++ .frame (joined t t') :: post = .frame df' :: rest' ∧ df'.cols = df.cols ∧
      df'.dtypes = df.dtypes := by
    cases pre with
    | nil =>
      have : t = df := by simpa using (List.cons.inj h1).1
      subst this
      exact ⟨joined t t', post, rfl, rfl, rfl⟩
    | cons e pre =>
      have : e = .frame df := (List.cons.inj h1).1
      subst this
      exact ⟨df, _, rfl, rfl, rfl⟩
  obtain ⟨df', rest', h1', hc, hd⟩ := hj
  have ht := h2 (.frame t) (by simp)
  have ht' := h2 (.frame t') (by simp)
  obtain ⟨u, hu, q2, q3, q4, q5, q6, -⟩ := ht
  cases hu
  obtain ⟨u, hu, r2, r3, r4, r5, r6, -⟩ := ht'
  cases hu
  refine frames_same_rows minimize fuel lambdaW lambdaA numeric hp a h1 h1' hg ⟨df', rest', h1', fun e he => ?_⟩
    hc (sameRows_of_perm ?_)
  · rw [hc, hd]
    rcases List.mem_append.1 he with he | he
    · exact h2 e (List.mem_append_left _ he)
    · rcases List.mem_cons.1 he with rfl | he
      · refine ⟨_, rfl, q2, q3, q4, ?_, q6, by simp⟩
        change (t.index ++ t'.index).Pairwise (· ≤ ·)
        refine List.pairwise_append.2 ⟨q5, r5, fun x hx y hy => ?_⟩
        cases hT : t.index.getLast? with
        | none =>
          rw [List.getLast?_eq_none_iff.1 hT] at hx
          simp at hx
        | some x' =>
          cases hH : t'.index.head? with
          | none =>
            rw [List.head?_eq_none_iff.1 hH] at hy
            simp at hy
          | some y' =>
            have hgap := h x' hT y' hH
            have hx' : x ≤ x' := by
              obtain ⟨l, hl⟩ := List.getLast?_eq_some_iff.1 hT
              rw [hl] at hx q5
              rcases List.mem_append.1 hx with hx | hx
              · exact (List.pairwise_append.1 q5).2.2 x hx x' (by simp)
              · simp at hx
                omega
            have hy' : y' ≤ y := by
              obtain ⟨l, hl⟩ := List.head?_eq_some_iff.1 hH
              rw [hl] at hy r5
              rcases List.mem_cons.1 hy with hy | hy
              · omega
              · exact (List.pairwise_cons.1 r5).1 y hy
            omega
      · exact h2 e (by simp [he])
  · have hf : ∀ (l l' : List (Transform.Entry Str T ℝ)), Transform.framesOf (l ++ l') =
        Transform.framesOf l ++ Transform.framesOf l' := fun l l' => List.filterMap_append
    have hf1 : ∀ (u : Transform.Frame Str T ℝ) (l : List (Transform.Entry Str T ℝ)),
        Transform.framesOf (.frame u :: l) = u :: Transform.framesOf l := fun u l => rfl
    rw [hf, hf, hf1, hf1, hf1]
    simp only [List.flatMap_append, List.flatMap_cons, frameRows_joined h hl hl', List.append_assoc]
    exact List.Perm.refl _

end

end Verif.Dynotears
