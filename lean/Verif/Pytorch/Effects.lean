import Verif.Pytorch.Smooth
import Verif.Pytorch.LearnAcyclic

/-!
# Edge weights and mean effects are average derivatives (C88)
-/

namespace Verif.Pytorch

open Verif.Notears (Minimizer)

/-- Specification: `D` is the rate of change of the (latent) reconstruction of column `j` when the value of column `i` in the row `x`
changes. -/
def Effect {N : Type} (g : Learned N) (x : ℕ → ℝ) (i j : ℕ) (D : ℝ) : Prop :=
  HasDerivAt (fun t => forward g.arch (g.arch.net g.params) (Function.update x i t) j) D (x i)

theorem update_smooth (x : ℕ → ℝ) (i k : ℕ) : Differentiable ℝ fun t => Function.update x i t k := by
  by_cases h : k = i
  · subst h
    simp only [Function.update_self]
    exact differentiable_id
  · simp only [Function.update_of_ne h]
    exact differentiable_const _

/-- With a positive clamp the derivatives behind the adjacency matrix exist. -/
theorem partialDeriv_spec (a : Arch) (hc : 0 < a.clamp) (w : List ℝ) (x : ℕ → ℝ) (i j : ℕ) :
    HasDerivAt (fun t => forward a (a.net w) (Function.update x i t) j) (partialDeriv a (a.net w) x i j) (x i) := by
  have hN := net_smooth a (DL.const w)
  exact ((forward_smooth a hc hN (x := fun t => Function.update x i t) (update_smooth x i) j).differentiableAt (x := x i)).hasDerivAt

theorem mean_const {α : Type} (l : List α) (hl : l ≠ []) (c : ℝ) : (l.map fun _ => c).sum / l.length = c := by
  have : (l.length : ℝ) ≠ 0 := by
    rw [Nat.cast_ne_zero]
    exact fun h => hl (List.length_eq_zero_iff.1 h)
  simp [this]

/-- The entries of the adjacency matrix are averages of derivatives, whether or not there are hidden layers. -/
theorem adjacency_spec (a : Arch) (hc : 0 < a.clamp) (w : List ℝ) (rows : List (ℕ → ℝ)) (hr : rows ≠ []) (i j : ℕ) (hi : i < a.d) :
    ∃ D : (ℕ → ℝ) → ℝ, (∀ x, HasDerivAt (fun t => forward a (a.net w) (Function.update x i t) j) (D x) (x i)) ∧
      adjacency a (a.net w) rows i j = (rows.map fun x => |D x|).sum / rows.length ∧
      meanEffect a (a.net w) rows i j = (rows.map fun x => D x).sum / rows.length := by
  by_cases hlin : a.hidden.headD 0 = 0
  · have hd2 : a.dims.length ≤ 2 := by rw [linear_dims hlin]; simp
    refine ⟨fun _ => meanEffect a (a.net w) rows i j, fun x => ?_, ?_, (mean_const rows hr _).symm⟩
    · have : (fun t => forward a (a.net w) (Function.update x i t) j) = fun t => meanEffect a (a.net w) rows i j * t +
          ((∑ k ∈ (Finset.range a.d).erase i, meanEffect a (a.net w) rows k j * x k) + biasAt (a.net w).bias j) := by
        funext t
        rw [linear_forward hlin w rows, ← Finset.add_sum_erase _ _ (Finset.mem_range.2 hi), Function.update_self]
        rw [Finset.sum_congr rfl fun k hk => by rw [Function.update_of_ne (Finset.ne_of_mem_erase hk)]]
        ring
      rw [this]
      simpa using ((hasDerivAt_id (x i)).const_mul (meanEffect a (a.net w) rows i j)).add_const
        ((∑ k ∈ (Finset.range a.d).erase i, meanEffect a (a.net w) rows k j * x k) + biasAt (a.net w).bias j)
    · rw [mean_const rows hr]
      unfold adjacency meanEffect
      rw [if_pos hd2, if_pos hd2]
  · refine ⟨fun x => partialDeriv a (a.net w) x i j, fun x => partialDeriv_spec a hc w x i j, ?_, ?_⟩
    all_goals
      have hd2 : ¬ a.dims.length ≤ 2 := by
        unfold Arch.dims
        rw [if_pos hlin]
        have : a.hidden ≠ [] := by rintro h; rw [h] at hlin; exact hlin rfl
        have := List.length_pos_iff.2 this
        simp
        omega
    · unfold adjacency; rw [if_neg hd2]
    · unfold meanEffect; rw [if_neg hd2]

section
variable {minimize : Minimizer ℝ} {init : ℕ → ℝ} {fuel : ℕ} {X : Frame} {x : Args ℕ} {g : Learned ℕ}

/-- **C88**: the weight of every learned edge is the average over the (preprocessed) data of the absolute rate of change of the
reconstruction of its target with its source, and its `mean_effect` the average of the rate of change itself. Between columns without an
edge that average is 0 without threshold, and otherwise below the threshold or 0. -/
theorem fromNumpy_effects (hwf : X.WF) (hd : SchemaDict x.schema) (h : fromNumpy minimize init fuel X x = .ok g) (hc : 0 < x.clamp) {p : Prep}
    (hp : prepareChecked X x.schema x.tabu = .ok p) (i j : ℕ) (hi : i < g.arch.d) (hj : j < g.arch.d) :
    ∃ D : (ℕ → ℝ) → ℝ, (∀ y, Effect g y i j (D y)) ∧
      (∀ e ∈ g.edges, e.src = i → e.dst = j → e.weight = (p.data.rows.map fun y => |D (realRow y)|).sum / p.data.rows.length ∧
        e.meanEffect = (p.data.rows.map fun y => D (realRow y)).sum / p.data.rows.length) ∧
      ((∀ e ∈ g.edges, ¬ (e.src = i ∧ e.dst = j)) →
        (∀ y ∈ p.data.rows, D (realRow y) = 0) ∨
          ∃ t, x.wThreshold = some t ∧ (p.data.rows.map fun y => |D (realRow y)|).sum / p.data.rows.length < t) := by
  obtain ⟨p', s, hp', -, hs, rfl⟩ := fromNumpy_ok h
  rw [hp] at hp'
  cases hp'
  have hne : p.data.rows ≠ [] := by
    obtain ⟨h1, -⟩ := prepareChecked_ok hp hd
    obtain ⟨-, -, -, -, h5⟩ := prepare_layout X x.schema x.tabu p hwf hd hp
    intro h0
    rw [h0] at h5
    exact h1 (List.length_eq_zero_iff.1 (by rw [h5.length_eq]; rfl))
  obtain ⟨D, h1, h2, h3⟩ := adjacency_spec (archOf x p.data.cols) hc s.params (p.data.rows.map realRow) (by simpa using hne) i j hi
  rw [List.map_map, List.length_map] at h2 h3
  refine ⟨D, h1, ?_, ?_⟩
  · intro e he hsrc hdst
    obtain ⟨-, -, e3, -, -, e6, -⟩ := mem_buildGraph.1 he
    rw [hsrc, hdst] at e3 e6
    exact ⟨e3.trans h2, e6.trans h3⟩
  · intro hno
    have hno := hno ⟨i, j, adjacency (archOf x p.data.cols) ((archOf x p.data.cols).net s.params) (p.data.rows.map realRow) i j,
      meanEffect (archOf x p.data.cols) ((archOf x p.data.cols).net s.params) (p.data.rows.map realRow) i j, "learned"⟩
    rw [mem_buildGraph] at hno
    by_cases h0 : adjacency (archOf x p.data.cols) ((archOf x p.data.cols).net s.params) (p.data.rows.map realRow) i j = 0
    · left
      rw [h2, div_eq_zero_iff] at h0
      rcases h0 with h0 | h0
      · intro y hy
        have hmem : |D (realRow y)| ∈ p.data.rows.map ((fun x => |D x|) ∘ realRow) := List.mem_map.2 ⟨y, hy, rfl⟩
        have hle := List.single_le_sum (l := p.data.rows.map ((fun x => |D x|) ∘ realRow)) (by
          intro z hz
          obtain ⟨u, -, rfl⟩ := List.mem_map.1 hz
          exact abs_nonneg _) _ hmem
        rw [h0] at hle
        exact abs_nonpos_iff.1 hle
      · rw [Nat.cast_eq_zero] at h0
        exact absurd (List.length_eq_zero_iff.1 h0) hne
    · right
      by_contra hcon
      push Not at hcon
      refine hno ⟨hi, hj, rfl, h0, fun t ht => ?_, rfl, rfl⟩ ⟨rfl, rfl⟩
      have := hcon t ht
      exact this.trans h2.symm.le

end

end Verif.Pytorch
