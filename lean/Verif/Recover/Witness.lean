import Verif.Recover.Props
import Verif.Generators.WrappersWitness
import Verif.Notears.WitnessOptimal
import Mathlib.Probability.Independence.InfinitePi
import Mathlib.Probability.Distributions.Gaussian.Real

/-!
# Concrete cases for C137
-/

namespace Verif.Recover.Witness

open MeasureTheory ProbabilityTheory Verif.Notears Verif.Generators Verif.Str Verif.Generators.SemWitness

/-! ### Standard normal noise -/

/-- The standard normal distribution has mean 0, mean square 1 and a finite fourth moment. -/
theorem normal_centred : Centred (gaussianReal 0 1) 1 where
  mean := integral_id_gaussianReal
  square := by
    have h := variance_id_gaussianReal (μ := 0) (v := 1)
    rw [variance_eq_integral measurable_id.aemeasurable] at h
    simp only [id_eq, integral_id_gaussianReal, sub_zero] at h
    simpa using h
  fourth := by
    have h := (memLp_id_gaussianReal' (μ := 0) (v := 1) 4 (by norm_num)).integrable_norm_pow (by norm_num)
    refine h.congr (ae_of_all _ fun x => ?_)
    change |x| ^ 4 = x ^ 4
    exact (even_two_mul 2).pow_abs x

/-- A graph with a weight for every edge. -/
noncomputable def weighted : SemGraph Str := ⟨[D, B, A, C], [(A, B, some 1), (A, D, some 3), (B, C, some (-2))]⟩

theorem weighted_pairs : weighted.pairs = graph.pairs := rfl

theorem weighted_wf : weighted.WF := ⟨wf.nodes, wf.edges, wf.ends⟩

/-- Independent standard normal numbers, one for every node and row. -/
noncomputable def normals (n : ℕ) : Measure ({u // u ∈ weighted.nodes} × Fin n → ℝ) := Measure.infinitePi fun _ => gaussianReal 0 1

/-- The generator draws its noise as these numbers times the scale. -/
noncomputable def outside (n : ℕ) (ω : {u // u ∈ weighted.nodes} × Fin n → ℝ) : Outside Str n Unit :=
  { WrappersWitness.linear n (fun _ _ => 0) with
    draws := { draws n with noise := fun _ scale u _ r => if h : u ∈ weighted.nodes then scale * ω (⟨u, h⟩, r) else 0 } }

theorem outside_ok (n : ℕ) (ω : {u // u ∈ weighted.nodes} × Fin n → ℝ) : (outside n ω).OK weighted :=
  ⟨(WrappersWitness.linear_ok n (fun _ _ => 0)).types, (WrappersWitness.linear_ok n (fun _ _ => 0)).order,
    (WrappersWitness.linear_ok n (fun _ _ => 0)).uniform⟩

theorem outside_iid (n : ℕ) : Iid (normals n) (gaussianReal 0 1)
    (fun (p : {u // u ∈ weighted.nodes} × Fin n) ω => (outside n ω).draws.noise "gaussian" 1 p.1 0 p.2) := by
  have h : (fun (p : {u // u ∈ weighted.nodes} × Fin n) ω => (outside n ω).draws.noise "gaussian" 1 p.1 0 p.2) = fun p ω => ω p := by
    funext p ω
    simp [outside, p.1.2]
  rw [h]
  refine ⟨fun p => measurable_pi_apply p, ?_, fun p => Measure.infinitePi_map_eval _ p⟩
  exact iIndepFun_infinitePi (P := fun _ : {u // u ∈ weighted.nodes} × Fin n => gaussianReal 0 1) (X := fun _ x => x) fun _ => measurable_id

/-- With standard normal noise: the probability that NOTEARS does not learn the graph is at most `c / n`. -/
theorem normal_example {ε : ℝ} (hε : 0 < ε) : ∃ δ > 0, ∃ c : ℝ, ∀ n : ℕ, 0 < n →
    normals n {ω | ¬ ∃ cols, continuousData (outside n ω) weighted "gaussian" 1 false = .ok cols ∧
      Learns (asData cols) (weights weighted) ε δ ∧ LearnsLasso (asData cols) (weights weighted) ε δ} ≤ ENNReal.ofReal (c / n) := by
  obtain ⟨δ, hδ, c, h⟩ := generated_learned weighted_wf acyclic (by
    intro e he
    simp only [weighted, List.mem_cons, List.not_mem_nil, or_false] at he
    rcases he with rfl | rfl | rfl <;> exact ⟨_, rfl⟩) (distribution := "gaussian") (by decide) one_pos normal_centred hε
  refine ⟨δ, hδ, c, fun n hn => ?_⟩
  exact h n Unit _ inferInstance (normals n) (outside n) hn (by unfold normals; infer_instance) (fun ω => ⟨outside_ok n ω, rfl⟩)
    (outside_iid n)

/-! ### What `Learns` assumes can be met -/

/-- An optimiser that goes to `w` if that is within the bounds, else stays. -/
noncomputable def goTo (w : List ℝ) : Minimizer ℝ := fun _ _ _ s bnds => open Classical in if InBox bnds w then w else s

theorem goTo_respects (w : List ℝ) : RespectsBounds (goTo w) := by
  intro k f g s bnds h
  unfold goTo
  split_ifs with h1
  · exact h1
  · exact h

/-- On all data and for all acyclic weights there is a run to which `Learns` applies. -/
theorem learns_applies {X : Data ℝ} (hX : X.finite = true ∧ X.rows * X.cols ≠ 0) {V : ℕ → ℕ → ℝ} (hV : AcyclicWeights X.cols V) (δ thr : ℝ)
    (hδ : 0 < δ) :
    ∃ (minimize : Minimizer ℝ) (fuel : ℕ) (a : Params ℝ ℕ) (L : Verif.Notears.Graph ℕ ℝ), RespectsBounds minimize ∧
      notears minimize fuel X a = .ok L ∧ a.maxIter ≠ 0 ∧ NotWorse (problem X) minimize (box X.cols a.tabu) (rowMajor X.cols V) ∧
      fromNumpyWarns (problem X) minimize fuel X a = false ∧ a.hTol ≤ δ ∧ a.wThreshold = thr := by
  let a : Params ℝ ℕ := ⟨100, δ, thr, ⟨none, none, none⟩⟩
  have hbox : InBox (box X.cols a.tabu) (rowMajor X.cols V) := by
    refine box_permitted fun i hi j hj hne => ⟨?_, by simp [a], by simp [a], by simp [a]⟩
    rintro rfl
    exact hne (NoCycle.diag hV ⟨i, hi⟩)
  obtain ⟨L, hL⟩ := notears_total (goTo (rowMajor X.cols V)) X a hX
  have hL := hL 21 (le_refl _)
  have hgo : ∀ k f g s, goTo (rowMajor X.cols V) k f g s (box X.cols a.tabu) = rowMajor X.cols V := fun k f g s => if_pos hbox
  refine ⟨goTo (rowMajor X.cols V), 21, a, L, goTo_respects _, hL, by simp [a], ?_, ?_, le_refl _, rfl⟩
  · intro k rho alpha start _ _ _
    rw [hgo]
  · obtain ⟨-, -, s, hs, -⟩ := fromNumpy_ok.1 hL
    have hw : s.warned = false := by
      rw [learnLoop_score hs (by simp [a]), (problem_penalised X).score]
      have h0 : expScore (mat X.cols s.wEst) = 0 := by
        rw [expScore_eq_zero_iff]
        rcases learnLoop_returned hs with h | ⟨k, rho, alpha, start, h⟩
        · rw [h, mat_zero]
          intro i hc
          cases hc with
          | single h => exact h rfl
          | tail _ h => exact h rfl
        · rw [h]
          have := hgo k ((problem X).func rho alpha) ((problem X).grad rho alpha) start
          change NoCycle (mat X.cols (goTo _ _ _ _ _ (box X.cols a.tabu)))
          rw [this, mat_rowMajor]
          exact hV
      rw [h0]
      exact_mod_cast hδ.le
    unfold fromNumpyWarns
    rw [hs]
    exact hw

/-! ### Growing data -/

/-- The data with the given errors. -/
noncomputable def solved (d : ℕ) (V : ℕ → ℕ → ℝ) (n : ℕ) (R : ℕ → Fin d → ℝ) : Data ℝ where
  rows := n
  cols := d
  entry i j := some (if h : j < d then Matrix.vecMul (R i) ((1 - Matrix.of fun i j : Fin d => V i j)⁻¹ : Matrix (Fin d) (Fin d) ℝ) ⟨j, h⟩ else 0)

theorem solved_residual {d : ℕ} {V : ℕ → ℕ → ℝ} (hV : AcyclicWeights d V) (n : ℕ) (R : ℕ → Fin d → ℝ) (i : ℕ) (j : Fin d) :
    (solved d V n R).residual V i j = R i j := by
  let M : Matrix (Fin d) (Fin d) ℝ := 1 - Matrix.of fun i j : Fin d => V i j
  have hdet : IsUnit M.det := by
    rw [show M.det = 1 from NoCycle.det (show NoCycle (Matrix.of fun i j : Fin d => V i j) from hV)]
    exact isUnit_one
  have hval : ∀ k : Fin d, (solved d V n R).val i k = Matrix.vecMul (R i) M⁻¹ k := fun k => by
    simp [Data.val, solved, M]
  have h1 : Matrix.vecMul (Matrix.vecMul (R i) M⁻¹) M = R i := by
    rw [Matrix.vecMul_vecMul, Matrix.nonsing_inv_mul _ hdet, Matrix.vecMul_one]
  unfold Data.residual
  change _ - ∑ k ∈ Finset.range d, _ = _
  rw [Finset.sum_range, hval, Finset.sum_congr rfl fun k _ => by rw [hval k]]
  conv_rhs => rw [← h1]
  simp only [M, Matrix.vecMul_sub, Matrix.vecMul_one, Pi.sub_apply]
  rfl

/-- Rows of independent standard normal errors. -/
noncomputable def normalRows (d : ℕ) : Measure (ℕ → Fin d → ℝ) := Measure.infinitePi fun _ => Measure.infinitePi fun _ => gaussianReal 0 1

theorem normalRows_equal (d : ℕ) : EqualRows (normalRows d) d 1 fun i ω => ω i := by
  have hI : Iid (Measure.infinitePi fun _ : Fin d => gaussianReal 0 1) (gaussianReal 0 1) fun (j : Fin d) (r : Fin d → ℝ) => r j :=
    ⟨fun j => measurable_pi_apply j, iIndepFun_infinitePi (P := fun _ : Fin d => gaussianReal 0 1) (X := fun _ x => x) fun _ => measurable_id,
      fun j => Measure.infinitePi_map_eval _ j⟩
  have hmap : ∀ i, (normalRows d).map (fun ω => ω i) = Measure.infinitePi fun _ : Fin d => gaussianReal 0 1 :=
    fun i => Measure.infinitePi_map_eval _ i
  have hm : ∀ i, Measurable fun ω : ℕ → Fin d → ℝ => ω i := fun i => measurable_pi_apply i
  refine ⟨fun i i' hne => ?_, fun i => ⟨(hm i).aemeasurable, (hm 0).aemeasurable, by rw [hmap, hmap]⟩, fun j => ?_, fun j k => ?_⟩
  · exact (iIndepFun_infinitePi (P := fun _ : ℕ => Measure.infinitePi fun _ : Fin d => gaussianReal 0 1) (X := fun _ x => x)
      fun _ => measurable_id).indepFun hne
  · have h2 : MemLp (fun r : Fin d → ℝ => r j) 2 (Measure.infinitePi fun _ : Fin d => gaussianReal 0 1) := by
      have h3 := memLp_id_gaussianReal' (μ := 0) (v := 1) 2 (by norm_num)
      rw [← hI.law j] at h3
      exact h3.comp_of_map (hI.measurable j).aemeasurable
    rw [← hmap 0] at h2
    exact h2.comp_of_map (hm 0).aemeasurable
  · have h1 := hI.product_mean normal_centred j k
    rw [← hmap 0] at h1
    rw [← h1]
    exact (integral_map (hm 0).aemeasurable ((measurable_pi_apply j).mul (measurable_pi_apply k)).aestronglyMeasurable).symm

/-- Almost surely, NOTEARS learns all acyclic linear equations with standard normal errors from enough rows. -/
theorem normalRows_example {d : ℕ} {V : ℕ → ℕ → ℝ} (hV : AcyclicWeights d V) {ε : ℝ} (hε : 0 < ε) :
    ∃ δ > 0, ∀ᵐ ω ∂normalRows d, ∀ᶠ n in Filter.atTop, Learns (solved d V n ω) V ε δ ∧ LearnsLasso (solved d V n ω) V ε δ :=
  eventually_learned hV one_pos (normalRows_equal d) (fun n ω => ⟨rfl, rfl, fun i _ j => solved_residual hV n ω i j⟩) hε

end Verif.Recover.Witness
