import Verif.Pytorch.Mlp

/-!
# The bounds line up with the weights of the network (C61)
-/

namespace Verif.Pytorch

open Verif.Notears (Tabu Bound InBox Permitted)

theorem Arch.m1_eq (a : Arch) : a.m1 = hiddenBnds a.hidden := by
  unfold Arch.m1 Arch.dims hiddenBnds
  split_ifs with h
  · cases hh : a.hidden with
    | nil => simp [hh] at h
    | cons x l => simp
  · rfl

theorem layerBounds_length (t : Tabu ℕ) (d m : ℕ) : (layerBounds t d m).length = d * m * d := by
  simp [layerBounds, List.length_flatMap, Nat.mul_assoc]

theorem layerBounds_get (t : Tabu ℕ) (d m : ℕ) {i j h : ℕ} (hi : i < d) (hj : j < d) (hh : h < m) :
    (layerBounds t d m)[(j * m + h) * d + i]? = some (Notears.bound t (none, none) (i, j)) := by
  unfold layerBounds
  have hlt : h * d + i < m * d := by
    have : (h + 1) * d ≤ m * d := Nat.mul_le_mul_right _ hh
    rw [Nat.succ_mul] at this; omega
  have := Notears.flatMap_range_get (fun j => (List.range m).flatMap fun _ => (List.range d).map fun i =>
    (Notears.bound t (none, none) (i, j) : Bound ℝ)) (m * d) d (by simp [List.length_flatMap]) j (h * d + i) hj hlt
  rw [show (j * m + h) * d + i = j * (m * d) + (h * d + i) by ring, this,
    Notears.flatMap_range_get _ d m (by simp) h i hh hi]
  simp [hi]

/-- The position of the weight from the feature `i` to the hidden unit `h` of the feature `j` in the flat parameters. -/
def Arch.pos (a : Arch) (j h i : ℕ) : ℕ := (j * a.m1 + h) * a.d + i

theorem Arch.pos_lt (a : Arch) {i j h : ℕ} (hi : i < a.d) (hj : j < a.d) (hh : h < a.m1) : a.pos j h i < a.d * a.m1 * a.d := by
  unfold Arch.pos
  have h1 : (j * a.m1 + h + 1) * a.d ≤ a.d * a.m1 * a.d := by
    refine Nat.mul_le_mul_right _ ?_
    have : (j + 1) * a.m1 ≤ a.d * a.m1 := Nat.mul_le_mul_right _ hj
    rw [Nat.succ_mul] at this; omega
  rw [Nat.succ_mul] at h1; omega

theorem Arch.net_weight (a : Arch) (w : List ℝ) {k : ℕ} (hk : k < a.d * a.m1 * a.d) : (a.net w).weight.getD k 0 = w.getD k 0 := by
  have : (a.net w).weight = w.take (a.d * a.m1 * a.d) := by
    unfold Arch.net Arch.sizes
    split_ifs <;> rfl
  rw [this, List.getD_eq_getElem?_getD, List.getD_eq_getElem?_getD, List.getElem?_take_of_lt hk]

/-- The later layers have the sizes `layerDims`. -/
theorem Arch.net_layers (a : Arch) (w : List ℝ) :
    (a.net w).layers.length = a.layerDims.length ∧
      ∀ (k : ℕ) (l : Layer), (a.net w).layers[k]? = some l → a.layerDims[k]? = some (l.inF, l.outF) := by
  have key : ∀ (b : Bool) (ps : List (ℕ × ℕ)) (ts : List (List ℝ)), (readLayers b ps ts).length = ps.length ∧
      ∀ (k : ℕ) (l : Layer), (readLayers b ps ts)[k]? = some l → ps[k]? = some (l.inF, l.outF) := by
    intro b ps
    induction ps with
    | nil => intro ts; simp [readLayers]
    | cons p ps ih =>
      intro ts
      unfold readLayers
      split_ifs with hb
      · refine ⟨by simp [(ih ts.tail.tail).1], ?_⟩
        intro k l hl
        cases k with
        | zero => simp only [List.getElem?_cons_zero, Option.some.injEq] at hl ⊢; rw [← hl]
        | succ k => exact (ih ts.tail.tail).2 k l (by simpa using hl)
      · refine ⟨by simp [(ih ts.tail).1], ?_⟩
        intro k l hl
        cases k with
        | zero => simp only [List.getElem?_cons_zero, Option.some.injEq] at hl ⊢; rw [← hl]
        | succ k => exact (ih ts.tail).2 k l (by simpa using hl)
  unfold Arch.net
  split_ifs
  · exact key true _ _
  · exact key false _ _

theorem Arch.m1_pos (a : Arch) : 0 < a.m1 := by
  rw [a.m1_eq]; unfold hiddenBnds; split_ifs with h <;> omega

/-- Without hidden layers every feature has one unit. -/
theorem Arch.m1_linear (a : Arch) (hl : a.dims.length ≤ 2) : a.m1 = 1 := by
  unfold Arch.m1
  unfold Arch.dims at hl ⊢
  split_ifs with h0
  · rw [if_pos h0] at hl
    cases hh : a.hidden with
    | nil => rfl
    | cons x l => rw [hh] at hl; simp at hl
  · rfl

/-- The first of the later layers reads the units of the first layer. -/
theorem Arch.net_head (a : Arch) (w : List ℝ) (l : Layer) (ls : List Layer) (h : (a.net w).layers = l :: ls) : l.inF = a.m1 := by
  have := (a.net_layers w).2 0 l (by rw [h]; rfl)
  unfold Arch.layerDims Arch.m1 at *
  unfold Arch.dims at *
  split_ifs at this ⊢ with hz
  · cases hh : a.hidden with
    | nil => simp [hh] at hz
    | cons x xs =>
      cases xs with
      | nil => simp [hh] at this; simpa using this.1.symm
      | cons y ys => simp [hh] at this; simpa using this.1.symm
  · simp at this

theorem applyLayer_congr (eps : ℝ) (j : ℕ) (l : Layer) {u v : ℕ → ℝ} (h : ∀ k < l.inF, u k = v k) :
    applyLayer eps j l u = applyLayer eps j l v := by
  have hn : ∀ k < l.inF, layerNorm l.inF eps (fun a => Real.sigmoid (u a)) k = layerNorm l.inF eps (fun a => Real.sigmoid (v a)) k := by
    intro k hk
    unfold layerNorm
    have hs : ∀ f : ℝ → ℝ, ∑ a ∈ Finset.range l.inF, f (Real.sigmoid (u a)) = ∑ a ∈ Finset.range l.inF, f (Real.sigmoid (v a)) := by
      intro f
      refine Finset.sum_congr rfl fun a ha => ?_
      rw [h a (Finset.mem_range.1 ha)]
    have h1 := hs id
    simp only [id] at h1
    simp only [h1, h k hk]
    rw [hs fun y => (y - (∑ a ∈ Finset.range l.inF, Real.sigmoid (v a)) / (l.inF : ℝ)) ^ 2]
  funext b
  unfold applyLayer
  congr 1
  refine Finset.sum_congr rfl fun a ha => ?_
  rw [hn a (Finset.mem_range.1 ha)]

/-- A feature all of whose weights to the feature `j` are zero has no influence on the reconstruction of `j`. -/
theorem forward_ignores (a : Arch) (w : List ℝ) (x y : ℕ → ℝ) (j : ℕ) (hj : j < a.d)
    (h : ∀ i < a.d, x i = y i ∨ ∀ k < a.m1, w.getD (a.pos j k i) 0 = 0) :
    forward a (a.net w) x j = forward a (a.net w) y j := by
  have first : ∀ k < a.m1, firstLayer a (a.net w) x j k = firstLayer a (a.net w) y j k := by
    intro k hk
    unfold firstLayer
    congr 1
    refine Finset.sum_congr rfl fun i hi => ?_
    have hi' := Finset.mem_range.1 hi
    have hw : (a.net w).weight.getD ((j * a.m1 + k) * a.d + i) 0 = w.getD (a.pos j k i) 0 := a.net_weight w (a.pos_lt hi' hj hk)
    rw [hw]
    rcases h i hi' with h | h
    · rw [h]
    · rw [h k hk, mul_zero, mul_zero]
  unfold forward
  cases hl : (a.net w).layers with
  | nil => exact first 0 a.m1_pos
  | cons l ls =>
    have : applyLayer a.clamp j l (firstLayer a (a.net w) x j) = applyLayer a.clamp j l (firstLayer a (a.net w) y j) :=
      applyLayer_congr _ _ _ fun k hk => first k (by rw [← a.net_head w l ls hl]; exact hk)
    simp only [List.foldl_cons, this]

/-- The bounds handed to the optimiser: `from_numpy` and `_get_flat_bounds`. -/
noncomputable def boundsOf (a : Arch) (t : Tabu ℕ) : List (Bound ℝ) := flatBounds a (layerBounds t a.d (hiddenBnds a.hidden))

theorem boundsOf_get (a : Arch) (t : Tabu ℕ) {i j h : ℕ} (hi : i < a.d) (hj : j < a.d) (hh : h < a.m1) :
    (boundsOf a t)[a.pos j h i]? = some (Notears.bound t (none, none) (i, j)) := by
  unfold boundsOf flatBounds
  rw [← a.m1_eq, List.getElem?_append_left (by rw [layerBounds_length]; exact a.pos_lt hi hj hh)]
  exact layerBounds_get t a.d a.m1 hi hj hh

theorem weight_zero {a : Arch} {t : Tabu ℕ} {w : List ℝ} (hw : InBox (boundsOf a t) w) {i j : ℕ} (hi : i < a.d) (hj : j < a.d)
    (hp : ¬ Permitted t i j) : ∀ h < a.m1, w.getD (a.pos j h i) 0 = 0 := by
  intro h hh
  have hb := boundsOf_get a t hi hj hh
  rw [Notears.bound_zero hp] at hb
  have := Notears.inBox_getD hw hb
  exact le_antisymm (this.2 0 rfl) (this.1 0 rfl)

/-- A feature all of whose weights to the feature `j` are zero has no influence on `j`. -/
theorem adjacency_zero (a : Arch) (w : List ℝ) (rows : List (ℕ → ℝ)) (i j : ℕ) (hi : i < a.d) (hj : j < a.d)
    (hz : ∀ h < a.m1, w.getD (a.pos j h i) 0 = 0) :
    adjacency a (a.net w) rows i j = 0 ∧ meanEffect a (a.net w) rows i j = 0 ∧
      ∀ x v, forward a (a.net w) (Function.update x i v) j = forward a (a.net w) x j := by
  have hf : ∀ x v, forward a (a.net w) (Function.update x i v) j = forward a (a.net w) x j := by
    intro x v
    refine forward_ignores a w _ _ j hj fun k _ => ?_
    by_cases hk : k = i
    · right; rw [hk]; exact hz
    · left; rw [Function.update_of_ne hk]
  have hd : ∀ x, partialDeriv a (a.net w) x i j = 0 := by
    intro x
    unfold partialDeriv
    have : (fun v => forward a (a.net w) (Function.update x i v) j) = fun _ => forward a (a.net w) x j := funext fun v => hf x v
    rw [this, deriv_const]
  have hlin : a.dims.length ≤ 2 → (a.net w).weight.getD (j * a.d + i) 0 = 0 := by
    intro hl
    have h0 := hz 0 a.m1_pos
    have hpos : a.pos j 0 i = j * a.d + i := by unfold Arch.pos; rw [a.m1_linear hl]; ring
    rw [a.net_weight w (by rw [← hpos]; exact a.pos_lt hi hj a.m1_pos), ← hpos, h0]
  refine ⟨?_, ?_, hf⟩
  · unfold adjacency
    split_ifs with hl
    · rw [hlin hl, abs_zero]
    · simp [hd]
  · unfold meanEffect
    split_ifs with hl
    · exact hlin hl
    · simp [hd]

/-- **C61**: for every weight vector within the bounds handed to the optimiser, every number and size of hidden layers, with or
without bias: at every excluded position (tabu edge, tabu parent, tabu child, diagonal) the adjacency and the mean effect are zero,
and the feature `i` has no influence on the reconstruction of `j` at all. -/
theorem adjacency_excluded (a : Arch) (t : Tabu ℕ) (w : List ℝ) (hw : InBox (boundsOf a t) w) (rows : List (ℕ → ℝ)) (i j : ℕ)
    (hi : i < a.d) (hj : j < a.d) (hp : ¬ Permitted t i j) :
    adjacency a (a.net w) rows i j = 0 ∧ meanEffect a (a.net w) rows i j = 0 ∧
      ∀ x v, forward a (a.net w) (Function.update x i v) j = forward a (a.net w) x j :=
  adjacency_zero a w rows i j hi hj (weight_zero hw hi hj hp)

/-- **C61**, nothing else is bounded: the bounds are as many as parameters, all weights of a permitted edge are free and so is every
parameter besides the first weights. -/
theorem bounds_only_excluded (a : Arch) (t : Tabu ℕ) :
    (boundsOf a t).length = a.sizes.sum ∧
    (∀ i j h, i < a.d → j < a.d → h < a.m1 → Permitted t i j → (boundsOf a t)[a.pos j h i]? = some (none, none)) ∧
    (∀ k : ℕ, a.d * a.m1 * a.d ≤ k → k < a.sizes.sum → (boundsOf a t)[k]? = some (none, none)) := by
  have hrep : ∀ l : List ℕ, l.flatMap (fun n => List.replicate n ((none, none) : Bound ℝ)) = List.replicate l.sum (none, none) := by
    intro l
    induction l with
    | nil => rfl
    | cons n l ih => rw [List.flatMap_cons, ih, List.sum_cons, List.replicate_append_replicate]
  have hs : a.sizes.sum = a.d * a.m1 * a.d + a.sizes.tail.sum := by
    unfold Arch.sizes
    simp
  have hl : (boundsOf a t).length = a.sizes.sum := by
    unfold boundsOf flatBounds
    rw [List.length_append, layerBounds_length, hrep, List.length_replicate, ← a.m1_eq, hs]
  refine ⟨hl, ?_, ?_⟩
  · intro i j h hi hj hh hp
    rw [boundsOf_get a t hi hj hh, Notears.bound_free hp]
  · intro k hk hk'
    unfold boundsOf flatBounds
    rw [hrep, ← a.m1_eq, List.getElem?_append_right (by rw [layerBounds_length]; exact hk), layerBounds_length,
      List.getElem?_replicate, if_pos (by omega)]

end Verif.Pytorch
