import Verif.Generators.Law.Logit
import Mathlib.Probability.Independence.InfinitePi

/-!
# The law of generated data: concrete cases (C122)
-/

namespace Verif.Generators.LawWitness

open MeasureTheory ProbabilityTheory Verif.Generators Verif.Mapper Verif.Str

section
variable {N : Type} [DecidableEq N] {n : ℕ}

/-- A number that is always in [0, 1). -/
noncomputable def clamp (x : ℝ) : ℝ := if 0 ≤ x ∧ x < 1 then x else 0

theorem measurable_clamp : Measurable clamp :=
  Measurable.ite (measurableSet_Ico (a := (0 : ℝ)) (b := 1)) measurable_id measurable_const

theorem clamp_law : uniformLaw.map clamp = uniformLaw := by
  have h : clamp =ᵐ[uniformLaw] id := by
    filter_upwards [uniformLaw_Ioo] with u hu
    rw [clamp, if_pos ⟨hu.1.le, hu.2⟩]
    rfl
  rw [Measure.map_congr h, Measure.map_id]

/-- The random numbers as coordinates. -/
noncomputable def coordinates (D₀ : SemDraws N n) (ω : DrawIx N n → ℝ) : SemDraws N n :=
  { weight := D₀.weight
    mask := D₀.mask
    intercept := D₀.intercept
    noise := fun _ _ v c r => ω (.noise v c r)
    eta := fun v r => ω (.eta v r)
    zif := fun v r => ω (.zif v r)
    poisson := fun v r => clamp (ω (.poisson v r)) }

/-- There are such random numbers, for any laws of the noise. -/
theorem exists_draws (noise : String) (L : ℝ → Measure ℝ) [∀ s, IsProbabilityMeasure (L s)] (g : SemGraph N) (noiseStd : ℝ)
    (D₀ : SemDraws N n) : ∃ P : Measure (DrawIx N n → ℝ), IsProbabilityMeasure P ∧
      RandomDraws noise L g noiseStd P D₀ (coordinates D₀) := by
  have hp : ∀ i : DrawIx N n, IsProbabilityMeasure (drawLaw L g noiseStd i : Measure ℝ) := by
    intro i
    cases i <;> simp only [drawLaw] <;> infer_instance
  let f : DrawIx N n → ℝ → ℝ := fun i => match i with
    | .poisson _ _ => clamp
    | _ => id
  have hf : ∀ i, Measurable (f i) := by
    intro i
    cases i
    · exact measurable_id
    · exact measurable_id
    · exact measurable_id
    · exact measurable_clamp
  have hval : ∀ i, (fun ω : DrawIx N n → ℝ => (coordinates D₀ ω).value noise g noiseStd i) = fun ω => f i (ω i) := by
    intro i
    cases i <;> rfl
  refine ⟨Measure.infinitePi fun i => drawLaw L g noiseStd i, inferInstance, fun _ => rfl, fun _ => rfl, fun _ => rfl, ?_, ?_, ?_, ?_⟩
  · intro ω v r
    change 0 ≤ clamp _ ∧ clamp _ < 1
    unfold clamp
    split
    · assumption
    · norm_num
  · intro i
    rw [hval]
    exact (hf i).comp (measurable_pi_apply i)
  · intro i
    rw [hval]
    rw [show (fun ω : DrawIx N n → ℝ => f i (ω i)) = f i ∘ fun ω => ω i from rfl, ← Measure.map_map (hf i) (measurable_pi_apply i),
      Measure.infinitePi_map_eval]
    cases i
    · exact Measure.map_id
    · exact Measure.map_id
    · exact Measure.map_id
    · exact clamp_law
  · rw [show (fun i (ω : DrawIx N n → ℝ) => (coordinates D₀ ω).value noise g noiseStd i) = fun i ω => f i (ω i) from funext hval]
    exact iIndepFun_infinitePi hf

end

def A : Str := ['A']
def D : Str := ['D']

/-- A count that depends on a categorical variable. -/
noncomputable def graph : SemGraph Str := ⟨[D, A], [(A, D, some 3)]⟩

def ty (v : Str) : VarType := if v = A then .categorical 3 else .count

def schema : List (Str × Str) := [(A, (VarType.categorical 3).str)]

theorem wf : graph.WF := by
  refine ⟨show [D, A].Nodup by decide, show [(A, D)].Nodup by decide, ?_⟩
  show ∀ e ∈ [(A, D)], e.1 ∈ [D, A] ∧ e.2 ∈ [D, A]
  decide

theorem acyclic : Verif.Graph.Acyclic graph.pairs := by
  have h : ∀ u v, Relation.TransGen (Verif.Graph.EdgeRel graph.pairs) u v → [A, D].idxOf u < [A, D].idxOf v := by
    intro u v huv
    have h1 : ∀ e ∈ [(A, D)], [A, D].idxOf e.1 < [A, D].idxOf e.2 := by decide
    induction huv with
    | single h => exact h1 _ h
    | tail _ h ih => exact ih.trans (h1 _ h)
  exact fun v hv => lt_irrefl _ (h v v hv)

theorem documented : Documented graph.nodes (some schema) sCount ty := by
  refine ⟨⟨.count, rfl, by simp⟩, ?_⟩
  intro v hv
  simp only [graph, List.mem_cons, List.not_mem_nil, or_false] at hv
  rcases hv with rfl | rfl
  · exact ⟨by decide +kernel, by intro k h; simp [ty, D, A] at h⟩
  · refine ⟨by decide +kernel, ?_⟩
    intro k h
    simp only [ty, if_true, VarType.categorical.injEq] at h
    omega

theorem distinct : Distinct strFmt (schOf graph.nodes ty) := by
  refine distinct_strings (show ([D, A].map fun v => (v, ty v)).map (·.1) |>.Nodup by decide) ?_
  intro u k v t hu hv ht i hi
  simp only [schOf, graph, List.map_cons, List.map_nil, List.mem_cons, Prod.mk.injEq, List.not_mem_nil, or_false] at hu hv
  rcases hv with ⟨rfl, -⟩ | ⟨rfl, rfl⟩
  · intro h
    have h2 : (strFmt u i).length = 1 := by rw [← h]; rfl
    rcases hu with ⟨rfl, -⟩ | ⟨rfl, -⟩ <;> simp [strFmt, A, D] at h2
  · exact absurd rfl (ht 3)

theorem topo : IsTopo graph.nodes graph.pairs [A, D] :=
  ⟨show [A, D].Perm [D, A] by decide, by decide, show [A, D].Pairwise fun a b => (b, a) ∉ [(A, D)] by decide⟩

/-- The distributions: Gumbel noise for the categories. -/
noncomputable def gumbel : Distributions := { categorical := "gumbel" }

theorem valid (intercept : Bool) : ValidLinear graph ty gumbel intercept := by
  refine ⟨⟨?_, ?_, ?_, ?_⟩, ?_, ?_⟩
  · intros; simp [gumbel, knownDistributions]
  · intros; simp [gumbel, knownDistributions]
  · intros; constructor <;> norm_num [gumbel]
  · intros; simp [gumbel, knownDistributions]
  · intros; simp [gumbel]
  · intros; simp [gumbel]

theorem discrete : Discrete graph ty := by
  intro v hv
  unfold ty
  split
  · exact Or.inr ⟨3, rfl⟩
  · exact Or.inl rfl

/-- A table: category 1 and count 2 in all rows. -/
noncomputable def table (n : ℕ) : Str → Col n := fun f _ => if f = strFmt A 1 then 1 else if f = D then 2 else 0

theorem table_inType (n : ℕ) : ∀ v ∈ graph.nodes, InType strFmt v (table n) (ty v) := by
  intro v hv
  simp only [graph, List.mem_cons, List.not_mem_nil, or_false] at hv
  rcases hv with rfl | rfl
  · intro r
    refine ⟨2, ?_⟩
    unfold table
    rw [if_neg (by decide), if_pos rfl]
    norm_num
  · intro r
    refine ⟨1, by norm_num, ?_, ?_⟩
    · unfold table
      rw [if_pos rfl]
    · intro c hc hne
      have : c = 0 ∨ c = 2 := by omega
      unfold table
      rcases this with rfl | rfl
      · rw [if_neg (by decide), if_neg (by decide)]
      · rw [if_neg (by decide), if_neg (by decide)]

example (n : ℕ) (empty : (DrawIx Str n → ℝ) → ℕ → Col n) (D₀ : SemDraws Str n) :
    ∃ P : Measure (DrawIx Str n → ℝ), ∃ _ : IsProbabilityMeasure P, ∃ (W : Str → Str → ℝ) (b : Str → ℝ),
      P {ω | ∃ F, semGenerator strFmt permissible [A, D] (empty ω) (coordinates D₀ ω) graph (some schema) sCount 2 gumbel true = .ok F ∧
          FrameOf strFmt graph.nodes ty F (table n)} =
        ∏ v ∈ graph.nodes.toFinset, ∏ r, ENNReal.ofReal
          (cellProb strFmt graph ty 2 gumbel.count (structuralMean strFmt graph ty W b (table n) v) (table n) v r) := by
  obtain ⟨P, hP, hD⟩ := exists_draws "gumbel" gumbelLaw graph 2 D₀
  obtain ⟨-, W, b, -, -, -, h, -⟩ := semGenerator_law wf acyclic distinct documented (List.Perm.refl permissible) topo (valid true)
    empty discrete rfl (by norm_num [gumbel]) (by norm_num [gumbel]) (by norm_num) hD
  exact ⟨P, hP, W, b, h _ (table_inType n)⟩

example (n : ℕ) {C : Type} (S : Str → ℕ → GpSampler C) (argsort : Argsort) (empty : (DrawIx Str n → ℝ) → ℕ → Col n)
    (D₀ : SemDraws Str n) (P : Measure (DrawIx Str n → ℝ)) [IsProbabilityMeasure P]
    (hD : RandomDraws "gumbel" gumbelLaw graph 2 P D₀ (coordinates D₀)) :=
  nonlinearSemGenerator_law wf acyclic distinct documented (List.Perm.refl permissible) topo S argsort (valid true).toValid empty discrete
    rfl (by norm_num [gumbel]) (by norm_num [gumbel]) (by norm_num) hD (table n) (table_inType n)

/-- The case where the logistic noise gives other probabilities. -/
example (empty : (DrawIx Str 1 → ℝ) → ℕ → Col 1) : ∃ (D₀ : SemDraws Str 1) (P : Measure (DrawIx Str 1 → ℝ)),
    IsProbabilityMeasure P ∧ P {ω | ∃ F, semGenerator strFmt permissible [LawLogit.A] (empty ω) (coordinates D₀ ω) LawLogit.graph none
      (VarType.categorical 2).str 1 {} true = .ok F ∧ (strFmt LawLogit.A 0, fun _ => 1) ∈ F} <
      ENNReal.ofReal (Real.exp (Real.log 3) / (Real.exp (Real.log 3) + Real.exp 0)) := by
  let D₀ : SemDraws Str 1 := { SemWitness.draws 1 with intercept := fun j => if j = 0 then Real.log 3 else 0 }
  obtain ⟨P, hP, hD⟩ := exists_draws "logit" logisticLaw LawLogit.graph 1 D₀
  exact ⟨D₀, P, hP, LawLogit.logit_not_softmax hD rfl rfl empty⟩

end Verif.Generators.LawWitness
