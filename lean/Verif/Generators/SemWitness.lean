import Verif.Generators.SemProps
import Verif.Mapper.PropsSchema

/-!
# Data of structural equation models: concrete cases

The hypotheses of the theorems can be met, by a graph with a variable of each type.
-/

namespace Verif.Generators.SemWitness

open Verif.Generators Verif.Mapper Verif.Str

def A : Str := ['A']
def B : Str := ['B']
def C : Str := ['C']
def D : Str := ['D']

/-- An edge from the categorical variable `A` without and one with a weight, and an edge between variables with one feature. -/
noncomputable def graph : SemGraph Str := ⟨[D, B, A, C], [(A, B, none), (A, D, some 3), (B, C, some 2)]⟩

def pairs : List (Str × Str) := [(A, B), (A, D), (B, C)]

theorem graph_pairs : graph.pairs = pairs := rfl

def ty (v : Str) : VarType := if v = A then .categorical 3 else if v = C then .binary else if v = D then .count else .continuous

/-- The type of `B` is the default. -/
def schema : List (Str × Str) := [(C, sBinary), (A, (VarType.categorical 3).str), (D, sCount)]

theorem documented : Documented graph.nodes (some schema) sContinuous ty := by
  refine ⟨⟨.continuous, rfl, by simp⟩, ?_⟩
  intro v hv
  simp only [graph, List.mem_cons, List.not_mem_nil, or_false] at hv
  rcases hv with rfl | rfl | rfl | rfl
  · exact ⟨by decide +kernel, by intro k h; simp [ty, D, A, C] at h⟩
  · exact ⟨by decide +kernel, by intro k h; simp [ty, B, D, A, C] at h⟩
  · refine ⟨by decide +kernel, ?_⟩
    intro k h
    simp only [ty, if_true, VarType.categorical.injEq] at h
    omega
  · exact ⟨by decide +kernel, by intro k h; simp [ty, A, C] at h⟩

theorem wf : graph.WF := by
  refine ⟨show [D, B, A, C].Nodup by decide, show pairs.Nodup by decide, ?_⟩
  show ∀ e ∈ pairs, e.1 ∈ [D, B, A, C] ∧ e.2 ∈ [D, B, A, C]
  decide

theorem acyclic : Verif.Graph.Acyclic graph.pairs := by
  have h : ∀ u v, Relation.TransGen (Verif.Graph.EdgeRel graph.pairs) u v →
      [A, B, D, C].idxOf u < [A, B, D, C].idxOf v := by
    intro u v huv
    have h1 : ∀ e ∈ pairs, [A, B, D, C].idxOf e.1 < [A, B, D, C].idxOf e.2 := by decide
    induction huv with
    | single h => exact h1 _ h
    | tail _ h ih => exact ih.trans (h1 _ h)
  exact fun v hv => lt_irrefl _ (h v v hv)

theorem distinct : Distinct strFmt (schOf graph.nodes ty) := by
  refine distinct_strings (show ([D, B, A, C].map fun v => (v, ty v)).map (·.1) |>.Nodup by decide) ?_
  intro u k v t hu hv ht i hi
  simp only [schOf, graph, List.map_cons, List.map_nil, List.mem_cons, Prod.mk.injEq, List.not_mem_nil, or_false] at hv
  have : ∀ v ∈ [D, B, C], v ≠ strFmt u i := by
    intro v hv h
    have h2 : (strFmt u i).length = 1 := by
      rw [← h]
      exact (show ∀ v ∈ [D, B, C], v.length = 1 by decide) v hv
    simp only [schOf, graph, List.map_cons, List.map_nil, List.mem_cons, Prod.mk.injEq, List.not_mem_nil, or_false] at hu
    rcases hu with ⟨rfl, -⟩ | ⟨rfl, -⟩ | ⟨rfl, -⟩ | ⟨rfl, -⟩ <;> simp [strFmt, A, B, C, D] at h2
  rcases hv with ⟨rfl, -⟩ | ⟨rfl, -⟩ | ⟨rfl, rfl⟩ | ⟨rfl, -⟩
  · exact this _ (by simp)
  · exact this _ (by simp)
  · exact absurd rfl (ht 3)
  · exact this _ (by simp)

theorem topo : IsTopo graph.nodes graph.pairs [A, B, D, C] ∧ IsTopo graph.nodes graph.pairs [A, D, B, C] :=
  ⟨⟨show [A, B, D, C].Perm [D, B, A, C] by decide, by decide, show [A, B, D, C].Pairwise fun a b => (b, a) ∉ pairs by decide⟩,
    show [A, D, B, C].Perm [D, B, A, C] by decide, by decide, show [A, D, B, C].Pairwise fun a b => (b, a) ∉ pairs by decide⟩

theorem valid (intercept : Bool) : ValidLinear graph ty {} intercept := by
  refine ⟨⟨?_, ?_, ?_, ?_⟩, ?_, ?_⟩
  · intros; decide
  · intros; decide
  · intros; constructor <;> norm_num
  · intros; decide
  · intros; decide
  · intros; decide

/-- Random numbers. -/
noncomputable def draws (n : ℕ) : SemDraws Str n :=
  ⟨fun _ _ a b => a + 2 * b, fun _ _ a b => 1 / (1 + a + b), fun j => j, fun _ s _ c r => s * (c + r), fun _ _ => 1 / 2,
    fun _ r => r / (1 + r), fun _ r => r / (1 + r)⟩

theorem draws_uniform (n : ℕ) : (draws n).Uniform := by
  intro v r
  have h : (0 : ℝ) ≤ (r : ℕ) := by positivity
  refine ⟨by simp only [draws]; positivity, ?_⟩
  simp only [draws]
  rw [div_lt_one (by positivity)]
  linarith

example (n : ℕ) (empty : ℕ → Col n) :=
  semGenerator_correct wf acyclic distinct documented (List.Perm.refl permissible) topo.1 (draws_uniform n) (valid true) 2 empty

example (n : ℕ) (empty empty' : ℕ → Col n) :=
  semGenerator_deterministic (dist := {}) wf acyclic distinct documented (List.Perm.refl permissible) topo.1 topo.2 (draws n) true 2
    empty empty'

example (n : ℕ) (empty : ℕ → Col n) : ∃ F : SemFrame Str n,
    semGenerator strFmt permissible [A, B, D, C] empty (draws n) graph (some schema) sContinuous 2 {} true = .ok F :=
  let ⟨F, hF, _⟩ := semGenerator_correct wf acyclic distinct documented (List.Perm.refl permissible) topo.1 (draws_uniform n)
    (valid true) 2 empty
  ⟨F, hF⟩

/-- A distribution that is not known is refused. -/
example (n : ℕ) (empty : ℕ → Col n) :
    semGenerator strFmt permissible [A, B, D, C] empty (draws n) graph (some schema) sContinuous 2 { binary := "uniform" } true =
      .error .valueError :=
  semGenerator_error wf distinct documented (List.Perm.refl permissible) (fun _ => topo.1) (draws n)
    (fun h => absurd (h.2.binary C (by simp [graph]) (by simp [ty, C, A])) (by decide)) 2 empty

/-- A process that draws the sum of the parents. -/
noncomputable def sumSampler : GpSampler Unit := ⟨fun x => (x.map List.sum, ()), fun x _ _ _ => (x.map List.sum, ())⟩

example (n : ℕ) (empty : ℕ → Col n) : ∃ (argsort : Argsort) (F : SemFrame Str n) (val : Str → Col n),
    nonlinearSemGenerator strFmt permissible [A, D, B, C] empty (draws n) (fun _ _ => sumSampler) argsort graph (some schema)
      sContinuous 2 {} = .ok F ∧ FrameOf strFmt graph.nodes ty F val ∧
      ∀ r, val B r = (((graph.preds B).flatMap fun u => (ty u).features strFmt u).map fun f => val f r).sum /
        stdDev ((parentRows strFmt graph ty val B).map List.sum) + noiseOf graph (draws n) 2 "gaussian" B 0 r := by
  obtain ⟨s, hs⟩ := exists_sorts
  obtain ⟨F, hF, val, h1, h2⟩ := nonlinearSemGenerator_function wf acyclic distinct documented (List.Perm.refl permissible) topo.2
    (draws_uniform n) (S := fun _ _ => sumSampler) hs (valid true).toValid 2 empty
  refine ⟨s, F, val, hF, h1, fun r => ?_⟩
  refine h2 B (by simp [graph]) (by simp [ty, A, B, C, D]) ?_ List.sum ⟨fun _ => rfl, fun _ _ _ _ => rfl⟩ r
  have : A ∈ graph.preds B := mem_preds.2 (show (A, B) ∈ pairs by decide)
  exact List.ne_nil_of_mem this

/-- Balance (C76), and what it does: if all of `n` distinct latent values are positive, the labels are 1 for few of them, not for
most. -/
theorem binaryLabels_all_positive {n : ℕ} (hn : 2 ≤ n) {latent : Col n} (hinj : Function.Injective latent) (hp : ∀ r, 0 < latent r) :
    (ones (binaryLabels latent) : ℝ) ≤ 5 / 100 * ((n : ℝ) - 1) + 1 := by
  have hn' : (2 : ℝ) ≤ n := by exact_mod_cast hn
  refine binaryLabels_many hinj hn ?_
  rw [List.filter_eq_self.2 fun r _ => by simpa using hp r, List.length_finRange]
  linarith

example : Function.Injective (fun r : Fin 40 => (r : ℝ) + 1) ∧ ∀ r : Fin 40, (0 : ℝ) < r + 1 :=
  ⟨fun a b h => by simpa [Fin.ext_iff] using h, fun r => by positivity⟩

end Verif.Generators.SemWitness
