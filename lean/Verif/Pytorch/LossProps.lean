import Mathlib.Analysis.SpecialFunctions.Pow.Real
import Verif.Pytorch.Loss
import Verif.Pytorch.CollapseProps

/-!
# The losses are negative log likelihoods (C79)
-/

namespace Verif.Pytorch

/-- A row of the preprocessed data as real numbers. -/
def realRow (r : List ℚ) (k : ℕ) : ℝ := ((r.getD k 0 : ℚ) : ℝ)

theorem argmax_indicator (cats : List ℚ) (v : ℚ) (hv : v ∈ cats) :
    argmax (cats.map fun c => if v = c then (1 : ℝ) else 0) = cats.idxOf v := by
  induction cats with
  | nil => simp at hv
  | cons c cats ih =>
    rw [List.map_cons, argmax]
    by_cases h : v = c
    · rw [if_pos, List.idxOf_cons, h]
      · simp
      · intro b hb
        simp only [List.mem_map] at hb
        obtain ⟨x, -, rfl⟩ := hb
        rw [if_pos h]
        split_ifs <;> norm_num
    · have hv' : v ∈ cats := by
        rcases List.mem_cons.1 hv with h' | h'
        · exact absurd h' h
        · exact h'
      rw [if_neg, ih hv', List.idxOf_cons_ne _ (Ne.symm h)]
      intro hb
      have := hb 1 (List.mem_map.2 ⟨v, hv', by simp⟩)
      rw [if_neg h] at this
      norm_num at this

theorem idxOf_get {cats : List ℚ} {v : ℚ} (hv : v ∈ cats) : cats[cats.idxOf v]? = some v := by
  rw [List.getElem?_eq_getElem (List.idxOf_lt_length_iff.2 hv), List.getElem_idxOf]

/-- **C79**, one row: the loss is the negative logarithm of the likelihood of the original value, up to a number that does not depend
on the network. -/
theorem rowLoss_likelihood (e : Enc) (X : Frame) (row out : List ℚ) (y : ℕ → ℝ) (hl : e.Learned X) (hc : e.Encodes row out)
    (hs : e.Suits (row.getD e.idx 0)) :
    e.rowLoss (realRow out) y = -Real.log (e.likelihood (row.getD e.idx 0) (e.cols.map y)) - e.constant (row.getD e.idx 0) := by
  have hget : ∀ i : ℕ, out[i]? = row[i]? → realRow out i = ((row.getD i 0 : ℚ) : ℝ) := by
    intro i h
    rw [realRow, List.getD_eq_getElem?_getD, h, ← List.getD_eq_getElem?_getD]
  cases e with
  | cont i =>
    simp only [Enc.rowLoss, Enc.likelihood, Enc.constant, Enc.cols, Enc.idx, hget i hc, List.map_cons, List.map_nil, List.getD_cons_zero]
    rw [Real.log_div (Real.exp_ne_zero _) (Real.sqrt_ne_zero'.2 (by positivity)), Real.log_exp]
    ring
  | bin i =>
    simp only [Enc.rowLoss, Enc.likelihood, Enc.constant, Enc.cols, Enc.idx, hget i hc, List.map_cons, List.map_nil, List.getD_cons_zero,
      Enc.Suits] at hs ⊢
    rw [Real.sigmoid_def, ← one_div]
    rcases hs with h | h
    · rw [h, if_neg (by norm_num)]; push_cast; ring
    · rw [h, if_pos rfl]; push_cast; ring
  | poiss i =>
    simp only [Enc.rowLoss, Enc.likelihood, Enc.constant, Enc.cols, Enc.idx, hget i hc, List.map_cons, List.map_nil, List.getD_cons_zero,
      Enc.Suits] at hs ⊢
    obtain ⟨n, h⟩ := hs
    rw [h, Nat.floor_natCast, Real.log_div (mul_ne_zero (Real.exp_ne_zero _) (pow_ne_zero _ (Real.exp_ne_zero _)))
      (by exact_mod_cast n.factorial_ne_zero), Real.log_mul (Real.exp_ne_zero _) (pow_ne_zero _ (Real.exp_ne_zero _)), Real.log_exp,
      Real.log_pow, Real.log_exp]
    push_cast
    ring
  | cat i g cats =>
    simp only [Enc.Suits, Enc.idx] at hs
    simp only [Enc.rowLoss, Enc.likelihood, Enc.constant, Enc.cols, Enc.idx]
    have hlen : g.length = cats.length := hl.2.1
    have hx : g.map (realRow out) = cats.map fun c => if row.getD i 0 = c then (1 : ℝ) else 0 := by
      refine List.ext_getElem? fun m => ?_
      rw [List.getElem?_map, List.getElem?_map]
      by_cases hm : m < g.length
      · have h1 : g[m]? = some g[m] := List.getElem?_eq_getElem hm
        have h2 : cats[m]? = some (cats[m]'(by omega)) := List.getElem?_eq_getElem _
        rw [h1, h2]
        simp only [Option.map_some, Option.some.injEq]
        rw [realRow, List.getD_eq_getElem?_getD, hc m _ _ h1 h2, Option.getD_some]
        split_ifs <;> simp
      · rw [List.getElem?_eq_none (by omega), List.getElem?_eq_none (by omega)]; rfl
    rw [hx, argmax_indicator cats _ hs]
    have hk : cats.idxOf (row.getD i 0) < (g.map y).length := by
      rw [List.length_map, hlen]; exact List.idxOf_lt_length_iff.2 hs
    generalize cats.idxOf (row.getD i 0) = k at hk
    generalize g.map y = lat at hk ⊢
    have hpos : 0 < (lat.map Real.exp).sum :=
      List.sum_pos _ (by intro a ha; obtain ⟨b, -, rfl⟩ := List.mem_map.1 ha; exact Real.exp_pos b) (by
        intro h; rw [List.map_eq_nil_iff] at h; rw [h] at hk; simp at hk)
    have h1 : (lat.map fun a => Real.exp a / (lat.map Real.exp).sum).getD k 0 = Real.exp (lat.getD k 0) / (lat.map Real.exp).sum := by
      rw [List.getD_eq_getElem _ _ (by simpa using hk), List.getD_eq_getElem _ _ hk, List.getElem_map]
    rw [h1, Real.log_div (Real.exp_ne_zero _) hpos.ne', Real.log_exp]
    ring
  | ord i cats counts =>
    simp only [Enc.Suits, Enc.idx] at hs
    simp only [Enc.rowLoss, Enc.likelihood, Enc.constant, Enc.cols, Enc.idx, List.map_cons, List.map_nil, List.getD_cons_zero]
    have := hc _ (idxOf_get hs)
    rw [show realRow out i = ((cats.idxOf (row.getD i 0) : ℕ) : ℝ) by
      rw [realRow, List.getD_eq_getElem?_getD, this, Option.getD_some]; push_cast; rfl, Nat.floor_natCast]
    ring

/-- **C79**: after the preprocessing, the loss of every variable is the mean negative log likelihood of its original values under the
distributions reported for its reconstruction, up to a number that does not depend on the network. For categorical and ordinal
variables nothing has to be assumed about the data; binary data have to be 0 and 1 and counts whole numbers. -/
theorem loss_likelihood (X : Frame) (schema : Option (List (ℕ × Alias))) (t : Notears.Tabu ℕ) (p : Prep) (hwf : X.WF)
    (hd : SchemaDict schema) (h : prepareChecked X schema t = .ok p) (e : Enc) (he : e ∈ p.encs) (net : (ℕ → ℝ) → ℕ → ℝ)
    (hb : e.alias = .bin → ∀ v ∈ X.column e.idx, v = 0 ∨ v = 1) (hc : e.alias = .poiss → ∀ v ∈ X.column e.idx, ∃ n : ℕ, v = n) :
    e.loss (p.data.rows.map realRow) net =
      (List.zipWith (fun r out => -Real.log (e.likelihood (r.getD e.idx 0) (e.cols.map (net (realRow out))))) X.rows p.data.rows).sum
        / X.rows.length - ((X.column e.idx).map e.constant).sum / X.rows.length := by
  obtain ⟨-, -, -, h4, h5⟩ := prepare_layout X schema t p hwf hd h
  have hl := h4 e he
  have hs : ∀ r ∈ X.rows, e.Suits (r.getD e.idx 0) := by
    intro r hr
    have hm : r.getD e.idx 0 ∈ X.column e.idx := List.mem_map.2 ⟨r, hr, rfl⟩
    cases e with
    | cont i => trivial
    | bin i => exact hb rfl _ hm
    | poiss i => exact hc rfl _ hm
    | cat i g cats => exact (hl.1.2 _).2 hm
    | ord i cats counts => exact (hl.1.2 _).2 hm
  have key : ∀ (rs outs : List (List ℚ)), List.Forall₂ (fun r out => e.Encodes r out) rs outs → (∀ r ∈ rs, e.Suits (r.getD e.idx 0)) →
      ((outs.map realRow).map fun x => e.rowLoss x (net x)).sum =
        (List.zipWith (fun r out => -Real.log (e.likelihood (r.getD e.idx 0) (e.cols.map (net (realRow out))))) rs outs).sum -
          ((rs.map fun r => r.getD e.idx 0).map e.constant).sum := by
    intro rs outs hf
    induction hf with
    | nil => intro _; simp
    | cons h1 _ ih =>
      intro hs
      simp only [List.map_cons, List.sum_cons, List.zipWith_cons_cons]
      rw [ih fun r hr => hs r (List.mem_cons_of_mem _ hr), rowLoss_likelihood e X _ _ _ hl h1 (hs _ List.mem_cons_self)]
      ring
  have hlen : p.data.rows.length = X.rows.length := h5.length_eq.symm
  unfold Enc.loss
  rw [key X.rows p.data.rows (h5.imp fun r out ho => ho.2 e he) hs, List.length_map, hlen, sub_div]
  rfl

/-- The values of a binary column are not checked: for the value 2 the loss has no lower bound, so the objective has no minimum. -/
theorem binary_unbounded (M : ℝ) : ∃ y : ℕ → ℝ, (Enc.bin 0).rowLoss (fun _ => 2) y < M := by
  refine ⟨fun _ => max (2 - M) 1, ?_⟩
  set z := max (2 - M) 1 with hz
  have h1 : 2 - M ≤ z := le_max_left _ _
  have h0 : 1 ≤ z := le_max_right _ _
  have hpos : (0 : ℝ) < 1 + Real.exp (-z) := by positivity
  have hlog1 : Real.log (Real.sigmoid z) = -Real.log (1 + Real.exp (-z)) := by rw [Real.sigmoid_def, Real.log_inv]
  have hlog2 : Real.log (1 - Real.sigmoid z) = -z - Real.log (1 + Real.exp (-z)) := by
    have : 1 - Real.sigmoid z = Real.exp (-z) / (1 + Real.exp (-z)) := by
      rw [Real.sigmoid_def]; field_simp; ring
    rw [this, Real.log_div (Real.exp_ne_zero _) hpos.ne', Real.log_exp]
  have hle : Real.log (1 + Real.exp (-z)) ≤ 1 := by
    have h2 : Real.exp (-z) ≤ 1 := Real.exp_le_one_iff.2 (by linarith)
    have := Real.log_le_sub_one_of_pos hpos
    linarith
  simp only [Enc.rowLoss]
  rw [hlog1, hlog2]
  linarith

end Verif.Pytorch
