import Verif.Recover.DynFrame
import Verif.Recover.DynWitness

/-!
# Concrete cases for C138 on data frames
-/

namespace Verif.Recover.DynWitness

open MeasureTheory ProbabilityTheory Filter Verif.Notears Verif.Dynotears Verif.Generators Verif.Str

/-- The data frame with one row for each of the first `n` observations of a series and an index that starts at 0. -/
noncomputable def frameOf (cols : List Str) (n : ℕ) (x : ℕ → Fin cols.length → ℝ) : Transform.Frame Str Unit ℝ where
  cols := cols
  dtypes := cols.map fun _ => ()
  indexInt := true
  index := (List.range n).map fun t : ℕ => (0 : ℤ) + t
  rows := (List.range n).map fun t c => if h : cols.idxOf c < cols.length then x t ⟨cols.idxOf c, h⟩ else 0

/-- It holds them. -/
theorem frameOf_holds {cols : List Str} (hnd : cols.Nodup) (n : ℕ) (x : ℕ → Fin cols.length → ℝ) :
    Holds (fun _ : Unit => true) n x cols (frameOf cols n x) where
  columns := rfl
  types _ _ := rfl
  indexInt := rfl
  index := ⟨0, rfl⟩
  rows := by simp [frameOf]
  values t r hr i c hc := by
    simp only [frameOf, List.getElem?_map] at hr
    obtain ⟨t', ht', rfl⟩ := Option.map_eq_some_iff.1 hr
    obtain ⟨h1, rfl⟩ := List.getElem?_eq_some_iff.1 ht'
    obtain ⟨h2, rfl⟩ := List.getElem?_eq_some_iff.1 hc
    have h3 : cols.idxOf cols[(i : ℕ)] = i := List.Nodup.idxOf_getElem hnd _ _
    have h4 : cols.idxOf cols[(i : ℕ)] < cols.length := by rw [h3]; exact i.2
    beta_reduce
    rw [dif_pos h4]
    simp only [List.getElem_range]
    congr 1
    exact Fin.ext h3

theorem loop_cols : (intraNodes loop).Nodup := by rw [loop_intra]; decide +kernel

/-- The series with standard normal noise: almost surely, the loop is learned from all sufficiently long data frames. -/
theorem loop_frames {ε : ℝ} (hε : 0 < ε) {order : List ℕ}
    (ho : IsTopo (List.range (intraNodes loop).length) (intraEdges (intraNodes loop).length (dynWeights loop 0)) order) :
    ∃ δ > 0, ∀ᵐ ω ∂normals, ∀ᶠ n in atTop, LearnsFrame (fun _ : Unit => true) 1 (intraNodes loop)
      (frameOf (intraNodes loop) n (series loop 1 (noise ω) order)) (dynWeights loop) ε δ := by
  obtain ⟨δ, hδ, h⟩ := frame_eventually_learned loop_cols (by rw [loop_intra]; simp) one_ne_zero loop_acyclic one_pos hε
    (fun _ : Unit => true)
  have hP : IsProbabilityMeasure normals := by unfold normals; infer_instance
  refine ⟨δ, hδ, ?_⟩
  filter_upwards [h _ _ normals _ _ _ hP (fun ω => series_follows loop_acyclic loop_lags (noise ω) ho)
    (series_innovations loop_stable loop_acyclic loop_lags ho one_pos Witness.normal_centred noise_iid)] with ω hω
  filter_upwards [hω] with n hn
  exact hn _ (frameOf_holds loop_cols n _)

/-- For all data frames of length more than `p` there is a run of `from_pandas_dynamic`, with positive penalties, to which `LearnsFrame` applies. -/
theorem learnsFrame_applies {T : Type} [DecidableEq T] {numeric : T → Bool} {n p : ℕ} {cols : List Str} (hne : cols ≠ []) (hp : p ≠ 0)
    {x : ℕ → Fin cols.length → ℝ} {df : Transform.Frame Str T ℝ} (h : Holds numeric (n + p) x cols df) (hn : n ≠ 0) {u : ℕ → ℕ → ℕ → ℝ}
    (hu : AcyclicWeights cols.length (u 0)) (δ thr : ℝ) (hδ : 0 < δ) :
    ∃ X Xlags : List (List ℝ), Transform.transform numeric ⟨p, some cols, some false⟩ [.frame df] = .ok (.arrays X Xlags) ∧
    ∃ (minimize : Minimizer ℝ) (fuel : ℕ) (lam : ℝ) (a : Verif.Dynotears.Params ℝ Str) (g₀ : Verif.Notears.Graph Str ℝ),
      RespectsBounds minimize ∧ TabuNamed cols a.tabu ⟨none, none, none⟩ ∧
      dynotears minimize fuel lam lam (toData cols.length X) (toData (p * cols.length) Xlags) { a with tabu := ⟨none, none, none⟩ } = .ok (g₀, false) ∧
      a.maxIter ≠ 0 ∧ 0 < lam ∧ lam * absSum cols.length (u 0) + lam * ∑ k ∈ Finset.range p, absSum cols.length (u (k + 1)) ≤ δ ∧
      NotWorse (problem lam lam (toData cols.length X) (toData (p * cols.length) Xlags)) minimize (bounds ⟨none, none, none⟩ cols.length p)
        (splitVec cols.length p u) ∧ a.hTol ≤ δ ∧ a.wThreshold = thr := by
  obtain ⟨X, Xlags, h1, h2, h3, -⟩ := h.transform rfl hp
  refine ⟨X, Xlags, h1, ?_⟩
  have hd : cols.length ≠ 0 := fun h0 => hne (List.length_eq_zero_iff.1 h0)
  have hS : Shapes (toData cols.length X) (toData (p * cols.length) Xlags) :=
    ⟨by rw [h3.rows]; exact hn, hd, Nat.mul_ne_zero hp hd, h2, Dvd.intro_left p rfl⟩
  obtain ⟨minimize, fuel, lam, a, g, q1, q2, q3, q4, q5, q6, q7, q8, q9⟩ := learnsDyn_applies hS
    (p := p) (Nat.mul_div_cancel _ (Nat.pos_of_ne_zero hd)) (u := u) hu δ thr hδ
  refine ⟨minimize, fuel, lam, ⟨a.maxIter, a.hTol, a.wThreshold, ⟨none, none, none⟩⟩, g, q1, ⟨.none, .none, .none⟩, ?_, q3, q4, q5, ?_, q7, q8⟩
  · rw [← q9]
    exact q2
  · rw [← q9]
    exact q6

end Verif.Recover.DynWitness
