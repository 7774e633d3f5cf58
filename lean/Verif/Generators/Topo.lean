import Verif.Graph.Basic
import Mathlib.Logic.Function.Basic
import Mathlib.Data.List.Nodup
import Mathlib.Data.List.Sort

/-!
# Assigning variables in a topological order
-/

namespace Verif.Generators

section
variable {N V : Type} [DecidableEq N]

/-- What `nx.topological_sort` (external) returns for the nodes `ns` and edges `E`: all nodes once, no edge leading
back. -/
structure IsTopo (ns : List N) (E : List (N × N)) (order : List N) : Prop where
  perm : order.Perm ns
  nodup : order.Nodup
  forward : order.Pairwise fun a b => (b, a) ∉ E

/-- `for j in order: x[j] = f(x, j)`. -/
def assignAll (f : (N → V) → N → V) (order : List N) (x : N → V) : N → V :=
  order.foldl (fun x j => Function.update x j (f x j)) x

theorem assignAll_of_not_mem (f : (N → V) → N → V) {order : List N} {x : N → V} {i : N} (h : i ∉ order) :
    assignAll f order x i = x i := by
  induction order generalizing x with
  | nil => rfl
  | cons j order ih =>
    change assignAll f order (Function.update x j (f x j)) i = x i
    rw [ih (fun hi => h (List.mem_cons_of_mem _ hi)), Function.update_of_ne]
    rintro rfl
    exact h List.mem_cons_self

/-- If every variable depends only on earlier ones, then at the end every variable is what `f` computes from the
final values. -/
theorem assignAll_fixed {f : (N → V) → N → V} {dep : N → N → Prop}
    (hf : ∀ x y j, (∀ i, dep i j → x i = y i) → f x j = f y j) {order : List N} (hnd : order.Nodup)
    (hself : ∀ j ∈ order, ¬ dep j j) (ho : order.Pairwise fun a b => ¬ dep b a) (x : N → V) {j : N} (hj : j ∈ order) :
    assignAll f order x j = f (assignAll f order x) j := by
  induction order generalizing x with
  | nil => exact absurd hj (by simp)
  | cons k order ih =>
    obtain ⟨hk, hnd⟩ := List.nodup_cons.1 hnd
    obtain ⟨hk', ho⟩ := List.pairwise_cons.1 ho
    change assignAll f order (Function.update x k (f x k)) j = f (assignAll f order (Function.update x k (f x k))) j
    rcases List.mem_cons.1 hj with rfl | hj
    · rw [assignAll_of_not_mem f hk, Function.update_self]
      apply hf
      intro i hi
      have hij : i ≠ j := by
        rintro rfl
        exact hself i List.mem_cons_self hi
      have : i ∉ order := fun h => hk' i h hi
      rw [assignAll_of_not_mem f this, Function.update_of_ne hij]
    · exact ih hnd (fun j hj => hself j (List.mem_cons_of_mem _ hj)) ho _ hj

/-- The final values do not depend on the initial values of assigned variables, if dependencies are assigned. -/
theorem assignAll_congr {f : (N → V) → N → V} {dep : N → N → Prop}
    (hf : ∀ x y j, (∀ i, dep i j → x i = y i) → f x j = f y j) {order : List N} (x y : N → V)
    (hself : ∀ j ∈ order, ¬ dep j j) (ho : order.Pairwise fun a b => ¬ dep b a)
    (hxy : ∀ i, i ∉ order → x i = y i) : assignAll f order x = assignAll f order y := by
  induction order generalizing x y with
  | nil => exact funext fun i => hxy i (by simp)
  | cons k order ih =>
    obtain ⟨hk', ho⟩ := List.pairwise_cons.1 ho
    change assignAll f order (Function.update x k (f x k)) = assignAll f order (Function.update y k (f y k))
    refine ih _ _ (fun j hj => hself j (List.mem_cons_of_mem _ hj)) ho ?_
    have hfk : f x k = f y k := by
      apply hf
      intro i hi
      apply hxy
      intro hm
      rcases List.mem_cons.1 hm with rfl | hm
      · exact hself i List.mem_cons_self hi
      · exact hk' i hm hi
    intro i hi
    by_cases hik : i = k
    · subst hik
      rw [Function.update_self, Function.update_self, hfk]
    · rw [Function.update_of_ne hik, Function.update_of_ne hik]
      exact hxy i (by simp [hik, hi])

/-- Every acyclic graph has a topological order. -/
theorem exists_topo {ns : List N} (hns : ns.Nodup) {E : List (N × N)} (hE : ∀ e ∈ E, e.1 ∈ ns ∧ e.2 ∈ ns)
    (ha : Verif.Graph.Acyclic E) : ∃ order, IsTopo ns E order := by
  classical
  let rank : N → ℕ := fun v => (ns.toFinset.filter fun u => Relation.TransGen (Verif.Graph.EdgeRel E) u v).card
  have hrank : ∀ u v, (u, v) ∈ E → rank u < rank v := by
    intro u v huv
    refine Finset.card_lt_card ?_
    rw [Finset.ssubset_iff_of_subset]
    · refine ⟨u, ?_, ?_⟩
      · rw [Finset.mem_filter, List.mem_toFinset]
        exact ⟨(hE _ huv).1, .single huv⟩
      · rw [Finset.mem_filter]
        exact fun h => ha u h.2
    · intro x hx
      rw [Finset.mem_filter] at hx ⊢
      exact ⟨hx.1, hx.2.tail huv⟩
  haveI : Std.Total (fun u v => rank u ≤ rank v) := ⟨fun a b => le_total _ _⟩
  haveI : IsTrans N (fun u v => rank u ≤ rank v) := ⟨fun a b c => le_trans⟩
  refine ⟨ns.insertionSort fun u v => rank u ≤ rank v, List.perm_insertionSort _ _,
    (List.perm_insertionSort _ _).nodup_iff.2 hns, ?_⟩
  refine (List.pairwise_insertionSort (fun u v => rank u ≤ rank v) ns).imp ?_
  intro a b hab h
  exact absurd (hrank b a h) (not_lt.2 hab)

end

end Verif.Generators
