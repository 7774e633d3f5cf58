import Verif.Notears.WitnessOptimal
import Verif.Notears.PropsMultiplier
import Verif.Dynotears.Multiplier
import Mathlib.Analysis.Calculus.Deriv.Slope

/-!
# Concrete cases for C87

An optimiser that finds minima finds stationary points; there is one that finds minima of a concrete problem (`jump_minima`).
-/

namespace Verif.Notears.Witness

open Filter Topology

theorem deriv_nonpos_of_left {f : ℝ → ℝ} {D x y : ℝ} (hf : HasDerivAt f D x) (hy : y < x) (h : ∀ t, y ≤ t → t ≤ x → f x ≤ f t) : D ≤ 0 := by
  have ht : Tendsto (slope f x) (𝓝[Set.Iio x] x) (𝓝 D) :=
    (hasDerivWithinAt_iff_tendsto_slope' (by simp)).1 (hf.hasDerivWithinAt (s := Set.Iio x))
  refine le_of_tendsto ht ?_
  filter_upwards [Ioo_mem_nhdsLT hy] with t ht
  rw [slope_def_field]
  exact div_nonpos_of_nonneg_of_nonpos (sub_nonneg.2 (h t ht.1.le ht.2.le)) (sub_nonpos.2 ht.2.le)

theorem deriv_nonneg_of_right {f : ℝ → ℝ} {D x y : ℝ} (hf : HasDerivAt f D x) (hy : x < y) (h : ∀ t, x ≤ t → t ≤ y → f x ≤ f t) : 0 ≤ D := by
  have ht : Tendsto (slope f x) (𝓝[Set.Ioi x] x) (𝓝 D) :=
    (hasDerivWithinAt_iff_tendsto_slope' (by simp)).1 (hf.hasDerivWithinAt (s := Set.Ioi x))
  refine ge_of_tendsto ht ?_
  filter_upwards [Ioo_mem_nhdsGT hy] with t ht
  rw [slope_def_field]
  exact div_nonneg (sub_nonneg.2 (h t ht.1.le ht.2.le)) (sub_nonneg.2 ht.1.le)

theorem inBox_set {bnds : List (Bound ℝ)} {w : List ℝ} (hw : InBox bnds w) {k : ℕ} {b : Bound ℝ} (hb : bnds[k]? = some b) {t : ℝ}
    (h1 : ∀ l, b.1 = some l → l ≤ t) (h2 : ∀ u, b.2 = some u → t ≤ u) : InBox bnds (w.set k t) := by
  obtain ⟨hl, hall⟩ := List.forall₂_iff_get.1 hw
  refine List.forall₂_iff_get.2 ⟨by rw [List.length_set]; exact hl, fun l h3 h4 => ?_⟩
  simp only [List.get_eq_getElem, List.getElem_set]
  obtain ⟨h5, h6⟩ := List.getElem?_eq_some_iff.1 hb
  by_cases hk : k = l
  · subst hk
    rw [if_pos rfl, h6]
    exact ⟨h1, h2⟩
  · rw [if_neg hk]
    exact hall l h3 (by omega)

/-- Minima within the bounds are stationary. -/
theorem stationary_of_minima {P : Problem ℝ} {minimize : Minimizer ℝ} {bnds : List (Bound ℝ)} (hm : RespectsBounds minimize)
    (hG : ∀ rho alpha : ℝ, IsGradient bnds.length (P.func rho alpha) (P.grad rho alpha)) (h : FindsMinima P minimize bnds) :
    FindsStationary P minimize bnds := by
  intro n rho alpha start hr ha hs k b hb
  have hbox := hm n (P.func rho alpha) (P.grad rho alpha) start bnds hs
  obtain ⟨w, hw⟩ : ∃ w, minimize n (P.func rho alpha) (P.grad rho alpha) start bnds = w := ⟨_, rfl⟩
  have hmin : ∀ v, InBox bnds v → P.func rho alpha w ≤ P.func rho alpha v := by
    intro v hv
    rw [← hw]
    exact h v hv n rho alpha start hr ha hs
  rw [hw] at hbox ⊢
  obtain ⟨hk, -⟩ := List.getElem?_eq_some_iff.1 hb
  obtain ⟨f, hf, hd⟩ := (hG rho alpha).coord hbox.length_eq.symm hk
  have hkw : k < w.length := by rw [← hbox.length_eq]; exact hk
  have hself : w.set k (w.getD k 0) = w := by
    rw [List.getD_eq_getElem _ _ hkw, List.set_getElem_self]
  have hle : ∀ t, InBox bnds (w.set k t) → f (w.getD k 0) ≤ f t := by
    intro t ht
    have h1 := hmin _ ht
    rw [hf t] at h1
    rw [← hself, hf] at h1
    exact WithTop.coe_le_coe.1 h1
  obtain ⟨b1, b2⟩ := inBox_getD hbox hb
  constructor
  · intro hlow
    obtain ⟨y, hy, hy'⟩ : ∃ y, y < w.getD k 0 ∧ ∀ l, b.1 = some l → l ≤ y := by
      cases hl : b.1 with
      | none => exact ⟨w.getD k 0 - 1, by linarith, by simp⟩
      | some l => exact ⟨l, hlow l hl, fun l' h => (Option.some.inj h).ge⟩
    exact deriv_nonpos_of_left hd hy fun t h1 h2 => hle t (inBox_set hbox hb (fun l hl => (hy' l hl).trans h1)
      fun u hu => h2.trans (b2 u hu))
  · intro hup
    obtain ⟨y, hy, hy'⟩ : ∃ y, w.getD k 0 < y ∧ ∀ u, b.2 = some u → y ≤ u := by
      cases hl : b.2 with
      | none => exact ⟨w.getD k 0 + 1, by linarith, by simp⟩
      | some l => exact ⟨l, hup l hl, fun l' h => (Option.some.inj h).le⟩
    exact deriv_nonneg_of_right hd hy fun t h1 h2 => hle t (inBox_set hbox hb (fun l hl => (b1 l hl).trans h1)
      fun u hu => h2.trans (hy' u hu))

theorem jump_stationary : FindsStationary (problem data2) (jump [0, 1, 0, 0]) (box 2 tabu0) := by
  refine stationary_of_minima (jump_respects _) ?_ jump_minima
  intro rho alpha
  have := problem_gradient data2 rho alpha
  rw [box_tabu0]
  exact this

/-- The hypotheses of `notears_stationary` are met, and the edge from 0 to 1 is one of those the conclusion is about. -/
example : ∃ g, notears (jump [0, 1, 0, 0]) 21 data2 ⟨100, 1 / 10 ^ 8, 0, tabu0⟩ = .ok g ∧ Permitted tabu0 0 1 ∧
    ∃ (W : ℕ → ℕ → ℝ) (m : ℝ), 0 ≤ m ∧
      HasDerivAt (fun t => squaredError data2 (withEntry W 0 1 t) + m * dagScore 2 (withEntry W 0 1 t)) 0 (W 0 1) := by
  obtain ⟨g, hg⟩ := notears_total (jump [0, 1, 0, 0]) data2 ⟨100, 1 / 10 ^ 8, 0, tabu0⟩ ⟨data2_finite, by decide⟩
  have hp : Permitted tabu0 0 1 := by
    refine ⟨by decide, by simp [tabu0], by simp [tabu0], ?_⟩
    rintro tc h
    obtain rfl := Option.some.inj h
    decide
  obtain ⟨W, m, -, hm, -, h⟩ := notears_stationary (jump_respects _) (hg 21 (le_refl _)) (by decide) jump_stationary
  exact ⟨g, hg 21 (le_refl _), hp, W, m, hm, h 0 (by decide) 1 (by decide) hp⟩

/-! ### With penalty -/

theorem boxLasso_tabu0 : boxLasso 2 tabu0 = [(some 0, some 0), (some 0, none), (some 0, some 0), (some 0, some 0),
    (some 0, some 0), (some 0, none), (some 0, some 0), (some 0, some 0)] := by
  simp [boxLasso, cells, List.range_succ, bound, tabu0]

theorem funcLasso2 (rho alpha p q : ℝ) : (problemLasso (1 / 2) data2).func rho alpha [0, p, 0, 0, 0, q, 0, 0] =
    (((1 + (1 - (p - q)) ^ 2) / 2 + 1 / 2 * (p + q) : ℝ) : WithTop ℝ) := by
  rw [(problemLasso_penalised (1 / 2) data2).func]
  congr 1
  have hm : matSplit 2 [0, p, 0, 0, 0, q, 0, 0] = mat 2 [0, p - q, 0, 0] := by
    funext i j
    fin_cases i <;> fin_cases j <;> simp [matSplit, mat, splitMatrix, reshape]
  have he : squaredError data2 (splitMatrix 2 [0, p, 0, 0, 0, q, 0, 0]) = (1 + (1 - (p - q)) ^ 2) / 2 := by
    rw [← error2]
    refine squaredError_congr data2 fun i hi j hj => ?_
    exact congrFun (congrFun hm ⟨i, hi⟩) ⟨j, hj⟩
  change squaredError data2 (splitMatrix 2 _) + 1 / 2 * _ + (1 / 2 * rho * expScore (matSplit 2 _) ^ 2 +
    alpha * expScore (matSplit 2 _)) = _
  rw [he, hm, score2]
  simp

theorem jumpLasso_minima : FindsMinima (problemLasso (1 / 2) data2) (jump [0, 1 / 2, 0, 0, 0, 0, 0, 0]) (boxLasso 2 tabu0) := by
  intro w₀ hw k rho alpha start _ _ _
  rw [boxLasso_tabu0] at hw ⊢
  unfold jump
  rw [if_pos (by simp [InBox])]
  obtain ⟨p, q, rfl, hp, hq⟩ : ∃ p q, w₀ = [0, p, 0, 0, 0, q, 0, 0] ∧ 0 ≤ p ∧ 0 ≤ q := by
    unfold InBox at hw
    match w₀, hw with
    | [a, b, c, d, e, f, g, h], hw =>
      simp at hw
      obtain ⟨h1, h2, h3, h4, h5, h6, h7, h8⟩ := hw
      exact ⟨b, f, by rw [le_antisymm h1.2 h1.1, le_antisymm h3.2 h3.1, le_antisymm h4.2 h4.1, le_antisymm h5.2 h5.1,
        le_antisymm h7.2 h7.1, le_antisymm h8.2 h8.1], h2, h6⟩
  rw [funcLasso2, funcLasso2, WithTop.coe_le_coe]
  nlinarith [sq_nonneg (p - q - 1 / 2)]

theorem jumpLasso_stationary :
    FindsStationary (problemLasso (1 / 2) data2) (jump [0, 1 / 2, 0, 0, 0, 0, 0, 0]) (boxLasso 2 tabu0) := by
  refine stationary_of_minima (jump_respects _) ?_ jumpLasso_minima
  intro rho alpha
  have := problemLasso_gradient (1 / 2) data2 rho alpha
  rw [boxLasso_tabu0]
  exact this

/-- The hypotheses of `notearsLasso_stationary` are met. -/
example : ∃ g, notearsLasso (jump [0, 1 / 2, 0, 0, 0, 0, 0, 0]) 21 (1 / 2) data2 ⟨100, 1 / 10 ^ 8, 0, tabu0⟩ = .ok g ∧
    ∃ (W : ℕ → ℕ → ℝ) (m D : ℝ), 0 ≤ m ∧
      HasDerivAt (fun t => squaredError data2 (withEntry W 0 1 t) + m * dagScore 2 (withEntry W 0 1 t)) D (W 0 1) ∧ |D| ≤ 1 / 2 := by
  obtain ⟨s, hs, -⟩ := learnLoop_terminates (P := problemLasso (1 / 2) data2)
    (minimize := jump [0, 1 / 2, 0, 0, 0, 0, 0, 0]) (bnds := boxLasso 2 tabu0)
    (fun _ => WithTop.coe_ne_top) (2 * 2 * 2) 100 (1 / 10 ^ 8) (le_refl 21)
  have hok : notearsLasso (jump [0, 1 / 2, 0, 0, 0, 0, 0, 0]) 21 (1 / 2) data2 ⟨100, 1 / 10 ^ 8, 0, tabu0⟩ = .ok _ :=
    fromNumpyLasso_ok.2 ⟨data2_finite, by decide, s, hs, rfl⟩
  have hp : Permitted tabu0 0 1 := by
    refine ⟨by decide, by simp [tabu0], by simp [tabu0], ?_⟩
    rintro tc h
    obtain rfl := Option.some.inj h
    decide
  obtain ⟨W, m, -, hm, -, h⟩ := notearsLasso_stationary (jump_respects _) hok (by decide) jumpLasso_stationary
  obtain ⟨D, h1, h2, -⟩ := h 0 (by decide) 1 (by decide) hp
  exact ⟨_, hok, W, m, D, hm, h1, h2⟩

/-! ### Dynamic structure learning -/

/-- One variable, one row. -/
noncomputable def data1 : Data ℝ := ⟨1, 1, fun _ _ => some 1⟩

theorem shapes1 : Dynotears.Shapes data1 data1 := ⟨one_ne_zero, one_ne_zero, one_ne_zero, rfl, dvd_refl _⟩

theorem bounds1 : (Dynotears.bounds {} 1 1 : List (Bound ℝ)) = [(some 0, some 0), (some 0, some 0), (some 0, none), (some 0, none)] := by
  simp [Dynotears.bounds, cells, List.range_succ, Dynotears.boundW, Dynotears.boundA]

theorem funcDyn1 (rho alpha p q : ℝ) : (Dynotears.problem (1 / 2) (1 / 2) data1 data1).func rho alpha [0, 0, p, q] =
    (((1 - (p - q)) ^ 2 / 2 + 1 / 2 * (p + q) : ℝ) : WithTop ℝ) := by
  rw [(Dynotears.problem_penalised (1 / 2) (1 / 2) shapes1).func]
  congr 1
  have hm : expScore (Dynotears.matW 1 [0, 0, p, q]) = 0 := by
    rw [expScore_eq_zero_iff]
    intro i hi
    obtain ⟨j, hj, -⟩ := Relation.TransGen.head'_iff.1 hi
    rw [Dynotears.matW_eq] at hj
    fin_cases i; fin_cases j
    simp [Dynotears.weightOf] at hj
  have he : Dynotears.squaredErrorDyn data1 data1 (1 / 1) (Dynotears.weightOf 1 [0, 0, p, q]) = (1 - (p - q)) ^ 2 / 2 := by
    simp [Dynotears.squaredErrorDyn, data1, Data.val, Dynotears.weightOf]
  change Dynotears.squaredErrorDyn data1 data1 (1 / 1) (Dynotears.weightOf 1 [0, 0, p, q]) + _ +
    (1 / 2 * rho * expScore (Dynotears.matW 1 [0, 0, p, q]) ^ 2 + alpha * expScore (Dynotears.matW 1 [0, 0, p, q])) = _
  rw [he, hm]
  simp [data1]

theorem jumpDyn_minima : FindsMinima (Dynotears.problem (1 / 2) (1 / 2) data1 data1) (jump [0, 0, 1 / 2, 0]) (Dynotears.bounds {} 1 1) := by
  intro w₀ hw k rho alpha start _ _ _
  rw [bounds1] at hw ⊢
  unfold jump
  rw [if_pos (by simp [InBox])]
  obtain ⟨p, q, rfl, hp, hq⟩ : ∃ p q, w₀ = [0, 0, p, q] ∧ 0 ≤ p ∧ 0 ≤ q := by
    unfold InBox at hw
    match w₀, hw with
    | [a, b, c, d], hw =>
      simp at hw
      obtain ⟨h1, h2, h3, h4⟩ := hw
      exact ⟨c, d, by rw [le_antisymm h1.2 h1.1, le_antisymm h2.2 h2.1], h3, h4⟩
  rw [funcDyn1, funcDyn1, WithTop.coe_le_coe]
  nlinarith [sq_nonneg (p - q - 1 / 2)]

theorem jumpDyn_stationary :
    FindsStationary (Dynotears.problem (1 / 2) (1 / 2) data1 data1) (jump [0, 0, 1 / 2, 0]) (Dynotears.bounds {} 1 1) := by
  refine stationary_of_minima (jump_respects _) ?_ jumpDyn_minima
  intro rho alpha
  have := Dynotears.problem_gradient (1 / 2) (1 / 2) shapes1 rho alpha
  rw [bounds1]
  exact this

/-- The hypotheses of `dynotears_stationary` are met. -/
example : ∃ r, Dynotears.dynotears (jump [0, 0, 1 / 2, 0]) 21 (1 / 2) (1 / 2) data1 data1 ⟨100, 1 / 10 ^ 8, 0, {}⟩ = .ok r ∧
    ∃ (w : ℕ → ℕ → ℕ → ℝ) (m D : ℝ), 0 ≤ m ∧
      HasDerivAt (fun t => Dynotears.squaredErrorDyn data1 data1 1 (Dynotears.withLag w 1 0 0 t) +
        m * dagScore 1 (Dynotears.withLag w 1 0 0 t 0)) D (w 1 0 0) ∧ |D| ≤ 1 / 2 := by
  obtain ⟨s, hs, -⟩ := learnLoop_terminates (P := Dynotears.problem (1 / 2) (1 / 2) data1 data1)
    (minimize := jump [0, 0, 1 / 2, 0]) (bnds := Dynotears.bounds {} 1 1)
    (fun _ => WithTop.coe_ne_top) (2 * (1 / 1 + 1) * 1 ^ 2) 100 (1 / 10 ^ 8) (le_refl 21)
  have hok : Dynotears.dynotears (jump [0, 0, 1 / 2, 0]) 21 (1 / 2) (1 / 2) data1 data1 ⟨100, 1 / 10 ^ 8, 0, {}⟩ = .ok _ :=
    Dynotears.fromNumpyDynamicW_ok.2 ⟨shapes1, s, hs, rfl⟩
  obtain ⟨w, m, -, hm, -, h⟩ := Dynotears.dynotears_stationary (jump_respects _) hok (by decide) jumpDyn_stationary
  obtain ⟨D, h1, h2, -⟩ := h 1 (by decide) 0 (by decide) 0 (by decide) ⟨by simp, by simp, by simp, by simp⟩
  exact ⟨_, hok, w, m, D, hm, h1, by simpa using h2⟩

end Verif.Notears.Witness
