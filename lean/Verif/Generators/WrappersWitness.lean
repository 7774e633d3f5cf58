import Verif.Generators.WrappersProps
import Verif.Generators.SemWitness

/-!
# Generators for data of one type: concrete cases
-/

namespace Verif.Generators.WrappersWitness

open Verif.Generators Verif.Mapper Verif.Str SemWitness

/-- Without a kernel. -/
noncomputable def linear (n : ℕ) (empty : ℕ → Col n) : Outside Str n Unit := ⟨strFmt, permissible, [A, B, D, C], empty, draws n, none⟩

/-- With a kernel whose process draws the sum of the parents. -/
noncomputable def withKernel (n : ℕ) (empty : ℕ → Col n) (argsort : Argsort) : Outside Str n Unit :=
  ⟨strFmt, permissible, [A, B, D, C], empty, draws n, some (fun _ _ => sumSampler, argsort)⟩

theorem linear_ok (n : ℕ) (empty : ℕ → Col n) : (linear n empty).OK graph := ⟨.refl _, fun _ => topo.1, draws_uniform n⟩

theorem withKernel_ok (n : ℕ) (empty : ℕ → Col n) (s : Argsort) : (withKernel n empty s).OK graph :=
  ⟨.refl _, fun _ => topo.1, draws_uniform n⟩

/-- `B` depends on `A` with the weight that was drawn, `D` on `A` with the weight 3; the columns are in the order of the nodes. -/
theorem wrappers_example (n : ℕ) (empty : ℕ → Col n) : ∃ a b c d : Col n,
    continuousData (linear n empty) graph "gaussian" 2 false = .ok [d, b, a, c] ∧
      (∀ r, a r = r) ∧ (∀ r, b r = 2 * r) ∧ (∀ r, d r = 5 * r) ∧ ∀ r, c r = 6 * r := by
  obtain ⟨val, W, b, h1, h2, h3, h4⟩ := continuousData_linear (linear_ok n empty) wf acyclic (distribution := "gaussian") (by decide) rfl 2
    false
  have hpA : graph.preds A = [] := by simp [graph, SemGraph.preds, A, B, C, D]
  have hpB : graph.preds B = [A] := by simp [graph, SemGraph.preds, A, B, C, D]
  have hpC : graph.preds C = [B] := by simp [graph, SemGraph.preds, A, B, C, D]
  have hpD : graph.preds D = [A] := by simp [graph, SemGraph.preds, A, B, C, D]
  have wB : W A B = 0 := by
    rw [h2 A B none (by simp [graph])]
    simp [linear, draws]
  have wD : W A D = 3 := h2 A D (some 3) (by simp [graph])
  have wC : W B C = 2 := h2 B C (some 2) (by simp [graph])
  have hA : ∀ r, val A r = r := by
    intro r
    rw [h4 A (by simp [graph]), hpA, h3 rfl, noiseOf, hpA]
    simp [linear, draws]
  have hB : ∀ r, val B r = 2 * r := by
    intro r
    rw [h4 B (by simp [graph]), hpB, h3 rfl, noiseOf, hpB]
    simp [linear, draws, wB]
  have hD : ∀ r, val D r = 5 * r := by
    intro r
    rw [h4 D (by simp [graph]), hpD, h3 rfl, noiseOf, hpD]
    simp [linear, draws, wD, hA]
    ring
  have hC : ∀ r, val C r = 6 * r := by
    intro r
    rw [h4 C (by simp [graph]), hpC, h3 rfl, noiseOf, hpC]
    simp [linear, draws, wC, hB]
    ring
  exact ⟨val A, val B, val C, val D, h1, hA, hB, hD, hC⟩

example (n : ℕ) (empty : ℕ → Col n) : ∃ (s : Argsort) (val : Str → Col n),
    continuousData (withKernel n empty s) graph "gumbel" 2 false = .ok (graph.nodes.map val) := by
  obtain ⟨s, hs⟩ := exists_sorts
  obtain ⟨val, h, -⟩ := continuousData_kernel (withKernel_ok n empty s) wf acyclic (distribution := "gumbel") (by decide) rfl hs
    (f := fun _ => List.sum) (fun _ => ⟨fun _ => rfl, fun _ _ _ _ => rfl⟩) 2 false
  exact ⟨s, val, h⟩

example (n : ℕ) (empty : ℕ → Col n) :=
  categoricalFrame_correct (linear_ok n empty) wf acyclic (distribution := "probit") (by decide) (k := 3) (by decide)
    (strFmt_distinct graph.nodes 3) 1 true

example (n : ℕ) (empty : ℕ → Col n) :=
  countFrame_correct (linear_ok n empty) wf acyclic (factor := 1 / 10) (by norm_num) (by norm_num) true

example (n : ℕ) (empty : ℕ → Col n) : binaryFrame (linear n empty) graph "uniform" 1 true = .error .valueError :=
  (((wrappers_errors_partial (linear_ok n empty) wf 1 true).1 "uniform") (.inr ⟨by simp [graph], by decide⟩)).2.2.2

end Verif.Generators.WrappersWitness
