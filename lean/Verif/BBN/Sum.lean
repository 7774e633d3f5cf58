import Mathlib.Logic.Function.DependsOn
import Mathlib.Data.Finset.Sort
import Mathlib.Algebra.BigOperators.Group.List.Basic
import Mathlib.Algebra.Order.BigOperators.Group.List
import Mathlib.Algebra.Order.Field.Basic
import Mathlib.Algebra.BigOperators.Ring.List
import Mathlib.Tactic.Ring
import Mathlib.Tactic.FieldSimp
import Mathlib.Tactic.Linarith

/-!
# Sums over assignments

A small specification vocabulary.  An *assignment* is a function `x : V → S` giving every
variable a state.  `sumOver dom [v₁, …, vₙ] f x` is the sum of `f` over all assignments that
agree with `x` outside `v₁ … vₙ` and give each `vᵢ` one of the states in `dom vᵢ`.
-/

namespace Verif.BBN

open Function

variable {V S K : Type} [DecidableEq V]

/-- Sum of `f` over every choice of states (from `dom`) for the listed variables. -/
def sumOver [AddCommMonoid K] (dom : V → List S) : List V → ((V → S) → K) → (V → S) → K
  | [], f, x => f x
  | v :: vs, f, x => ((dom v).map fun s => sumOver dom vs f (update x v s)).sum

section AddComm
variable [AddCommMonoid K] (dom : V → List S)

theorem sumOver_append (vs ws : List V) (f : (V → S) → K) (x : V → S) :
    sumOver dom (vs ++ ws) f x = sumOver dom vs (sumOver dom ws f) x := by
  induction vs generalizing x with
  | nil => rfl
  | cons v vs ih => simp only [List.cons_append, sumOver, ih]

theorem sumOver_congr {vs : List V} {f g : (V → S) → K} (h : ∀ x, f x = g x) (x : V → S) :
    sumOver dom vs f x = sumOver dom vs g x := by
  have : f = g := funext h
  rw [this]

theorem list_sum_comm {α β : Type} (l : List α) (m : List β) (f : α → β → K) :
    (l.map fun a => (m.map fun b => f a b).sum).sum =
      (m.map fun b => (l.map fun a => f a b).sum).sum := by
  induction l with
  | nil => simp
  | cons a l ih => simp [ih, List.sum_map_add]

theorem sumOver_perm {vs ws : List V} (h : vs.Perm ws) (f : (V → S) → K) (x : V → S) :
    sumOver dom vs f x = sumOver dom ws f x := by
  induction h generalizing x with
  | nil => rfl
  | cons v _ ih => simp only [sumOver, ih]
  | swap v w l =>
    simp only [sumOver]
    by_cases hvw : v = w
    · subst hvw; rfl
    · rw [list_sum_comm]
      refine congrArg List.sum (List.map_congr_left fun s _ => ?_)
      refine congrArg List.sum (List.map_congr_left fun t _ => ?_)
      rw [update_comm hvw]
  | trans _ _ ih₁ ih₂ => rw [ih₁, ih₂]

/-- After summing `v` out, the value given to `v` is irrelevant. -/
theorem sumOver_update {vs : List V} {v : V} (hv : v ∈ vs) (f : (V → S) → K) (x : V → S) (s : S) :
    sumOver dom vs f (update x v s) = sumOver dom vs f x := by
  have hp : vs.Perm (v :: vs.erase v) := List.perm_cons_erase hv
  rw [sumOver_perm dom hp, sumOver_perm dom hp]
  simp [sumOver]

theorem sumOver_dependsOn_aux (vs : List V) {f : (V → S) → K} {A : Set V}
    (hf : DependsOn f (A ∪ {v | v ∈ vs})) : DependsOn (sumOver dom vs f) A := by
  induction vs generalizing A with
  | nil => intro x y h; exact hf (fun i hi => by simpa using h i (by simpa using hi))
  | cons v vs ih =>
    intro x y h
    simp only [sumOver]
    refine congrArg List.sum (List.map_congr_left fun s _ => ?_)
    have : DependsOn (sumOver dom vs f) (A ∪ {v}) := by
      apply ih
      refine hf.mono ?_
      intro w hw
      simp only [Set.mem_union, Set.mem_setOf_eq, List.mem_cons, Set.mem_singleton_iff] at hw ⊢
      tauto
    apply this
    intro i hi
    by_cases hiv : i = v
    · subst hiv; simp
    · have : i ∈ A := by simpa [hiv] using hi
      simp [update_of_ne hiv, h i this]

theorem sumOver_dependsOn (vs : List V) {f : (V → S) → K} {A B : Set V}
    (hf : DependsOn f B) (hB : ∀ v ∈ B, v ∉ vs → v ∈ A) : DependsOn (sumOver dom vs f) A := by
  apply sumOver_dependsOn_aux
  refine hf.mono ?_
  intro v hv
  by_cases h : v ∈ vs
  · exact Or.inr h
  · exact Or.inl (hB v hv h)

end AddComm

section Field
variable [Field K] (dom : V → List S)

theorem list_sum_mul_left (a : K) {α : Type} (l : List α) (f : α → K) :
    (l.map fun s => a * f s).sum = a * (l.map f).sum := by
  induction l with
  | nil => simp
  | cons x l ih => simp [ih, mul_add]

/-- A factor that does not look at the summed variables comes out of the sum. -/
theorem sumOver_mul_left {vs : List V} {g f : (V → S) → K} {A : Set V} (hg : DependsOn g A)
    (hA : ∀ v ∈ vs, v ∉ A) (x : V → S) :
    sumOver dom vs (fun y => g y * f y) x = g x * sumOver dom vs f x := by
  induction vs generalizing x with
  | nil => rfl
  | cons v vs ih =>
    simp only [sumOver]
    rw [← list_sum_mul_left]
    refine congrArg List.sum (List.map_congr_left fun s _ => ?_)
    rw [ih fun w hw => hA w (List.mem_cons_of_mem _ hw)]
    congr 1
    apply hg
    intro i hi
    have : i ≠ v := fun h => hA v List.mem_cons_self (h ▸ hi)
    simp [update_of_ne this]

theorem sumOver_mul_right {vs : List V} {g f : (V → S) → K} {A : Set V} (hg : DependsOn g A)
    (hA : ∀ v ∈ vs, v ∉ A) (x : V → S) :
    sumOver dom vs (fun y => f y * g y) x = sumOver dom vs f x * g x := by
  have := sumOver_mul_left dom (f := f) hg hA x
  simp only [mul_comm (g _)] at this
  exact this

end Field

section Ordered
variable [Field K] [LinearOrder K] [IsStrictOrderedRing K] (dom : V → List S)

/-- `x` gives every variable one of its states. -/
def Valid (dom : V → List S) (x : V → S) : Prop := ∀ v, x v ∈ dom v

theorem Valid.update {x : V → S} (hx : Valid dom x) {v : V} {s : S} (hs : s ∈ dom v) :
    Valid dom (update x v s) := by
  intro w
  by_cases h : w = v
  · subst h; simpa using hs
  · simpa [update_of_ne h] using hx w

theorem sumOver_congr_valid {vs : List V} {f g : (V → S) → K}
    (h : ∀ x, Valid dom x → f x = g x) {x : V → S} (hx : Valid dom x) :
    sumOver dom vs f x = sumOver dom vs g x := by
  induction vs generalizing x with
  | nil => exact h x hx
  | cons v vs ih =>
    simp only [sumOver]
    exact congrArg List.sum (List.map_congr_left fun s hs => ih (hx.update dom hs))

theorem sumOver_nonneg {vs : List V} {f : (V → S) → K} (h : ∀ x, Valid dom x → 0 ≤ f x)
    {x : V → S} (hx : Valid dom x) : 0 ≤ sumOver dom vs f x := by
  induction vs generalizing x with
  | nil => exact h x hx
  | cons v vs ih =>
    simp only [sumOver]
    apply List.sum_nonneg
    intro a ha
    obtain ⟨s, hs, rfl⟩ := List.mem_map.1 ha
    exact ih (hx.update dom hs)

theorem list_sum_eq_zero {α : Type} {l : List α} {f : α → K} (h : ∀ a ∈ l, 0 ≤ f a)
    (h0 : (l.map f).sum = 0) : ∀ a ∈ l, f a = 0 := by
  induction l with
  | nil => simp
  | cons b l ih =>
    have hb := h b List.mem_cons_self
    have hl : 0 ≤ (l.map f).sum := by
      apply List.sum_nonneg
      intro a ha
      obtain ⟨s, hs, rfl⟩ := List.mem_map.1 ha
      exact h s (List.mem_cons_of_mem _ hs)
    rw [List.map_cons, List.sum_cons] at h0
    have hb0 : f b = 0 := by linarith
    have hl0 : (l.map f).sum = 0 := by linarith
    intro a ha
    rcases List.mem_cons.1 ha with rfl | ha
    · exact hb0
    · exact ih (fun a ha => h a (List.mem_cons_of_mem _ ha)) hl0 a ha

/-- If a sum of nonnegative terms vanishes then the term at the base point vanishes. -/
theorem sumOver_eq_zero {vs : List V} {f : (V → S) → K} (h : ∀ x, Valid dom x → 0 ≤ f x)
    {x : V → S} (hx : Valid dom x) (h0 : sumOver dom vs f x = 0) : f x = 0 := by
  induction vs generalizing x with
  | nil => exact h0
  | cons v vs ih =>
    simp only [sumOver] at h0
    have := list_sum_eq_zero (l := dom v) (f := fun s => sumOver dom vs f (Function.update x v s))
      (fun s hs => sumOver_nonneg dom h (hx.update dom hs)) h0 (x v) (hx v)
    simp only [update_eq_self] at this
    exact ih hx this

end Ordered

/-! ### Finset version -/

section Fin
variable {V S K : Type} [LinearOrder V]

/-- `sumOver` for a finite set of variables. -/
def sumF [AddCommMonoid K] (dom : V → List S) (A : Finset V) (f : (V → S) → K) : (V → S) → K :=
  sumOver dom (A.sort (· ≤ ·)) f

theorem sort_union_perm {A B : Finset V} (h : Disjoint A B) :
    ((A ∪ B).sort (· ≤ ·)).Perm (A.sort (· ≤ ·) ++ B.sort (· ≤ ·)) := by
  apply (List.perm_ext_iff_of_nodup (Finset.sort_nodup _ _) ?_).2
  · intro a; simp
  · apply List.Nodup.append (Finset.sort_nodup _ _) (Finset.sort_nodup _ _)
    intro a ha hb
    simp only [Finset.mem_sort] at ha hb
    exact Finset.disjoint_left.1 h ha hb

theorem sumF_union [AddCommMonoid K] (dom : V → List S) {A B : Finset V} (h : Disjoint A B)
    (f : (V → S) → K) (x : V → S) :
    sumF dom (A ∪ B) f x = sumF dom A (sumF dom B f) x := by
  unfold sumF
  rw [sumOver_perm dom (sort_union_perm h), sumOver_append]

theorem sumF_dependsOn [AddCommMonoid K] (dom : V → List S) (A : Finset V) {f : (V → S) → K}
    {B C : Set V} (hf : DependsOn f B) (hB : ∀ v ∈ B, v ∉ A → v ∈ C) :
    DependsOn (sumF dom A f) C := by
  apply sumOver_dependsOn dom _ hf
  intro v hv hn
  exact hB v hv (by simpa using hn)

theorem sumF_mul_left [Field K] (dom : V → List S) {B : Finset V} {g f : (V → S) → K} {A : Set V}
    (hg : DependsOn g A) (hA : ∀ v ∈ B, v ∉ A) (x : V → S) :
    sumF dom B (fun y => g y * f y) x = g x * sumF dom B f x :=
  sumOver_mul_left dom hg (by simpa using hA) x

theorem sumF_mul_right [Field K] (dom : V → List S) {B : Finset V} {g f : (V → S) → K} {A : Set V}
    (hg : DependsOn g A) (hA : ∀ v ∈ B, v ∉ A) (x : V → S) :
    sumF dom B (fun y => f y * g y) x = sumF dom B f x * g x :=
  sumOver_mul_right dom hg (by simpa using hA) x

end Fin

end Verif.BBN
