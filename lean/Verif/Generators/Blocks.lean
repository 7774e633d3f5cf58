import Verif.Generators.Sem
import Verif.Generators.Topo

/-!
# Assigning blocks of columns in a topological order
-/

namespace Verif.Generators

section
variable {N V : Type}

theorem writeCols_of_not_mem {x : ℕ → V} {idx : List ℕ} {cols : List V} {i : ℕ} (h : i ∉ idx) :
    writeCols x idx cols i = x i := by
  unfold writeCols
  induction idx generalizing x cols with
  | nil => rfl
  | cons j idx ih =>
    cases cols with
    | nil => rfl
    | cons c cols =>
      rw [List.zip_cons_cons, List.foldl_cons, ih fun hi => h (List.mem_cons_of_mem _ hi), Function.update_of_ne]
      rintro rfl
      exact h List.mem_cons_self

theorem map_writeCols {x : ℕ → V} {idx : List ℕ} {cols : List V} (hn : idx.Nodup) (hl : cols.length = idx.length) :
    idx.map (writeCols x idx cols) = cols := by
  induction idx generalizing x cols with
  | nil =>
    rw [List.length_nil, List.length_eq_zero_iff] at hl
    rw [hl]
    rfl
  | cons j idx ih =>
    cases cols with
    | nil => simp at hl
    | cons c cols =>
      obtain ⟨hj, hn⟩ := List.nodup_cons.1 hn
      have h1 : writeCols x (j :: idx) (c :: cols) = writeCols (Function.update x j c) idx cols := rfl
      rw [h1, List.map_cons, writeCols_of_not_mem hj, Function.update_self, ih hn (by simpa using hl)]

/-- `for v in order: x[:, idx[v]] = f(x, v)`. -/
def blockAll (idx : N → List ℕ) (f : (ℕ → V) → N → List V) (order : List N) (x : ℕ → V) : ℕ → V :=
  order.foldl (fun x v => writeCols x (idx v) (f x v)) x

theorem blockAll_of_not_mem {idx : N → List ℕ} {f : (ℕ → V) → N → List V} {order : List N} {x : ℕ → V} {i : ℕ}
    (h : ∀ v ∈ order, i ∉ idx v) : blockAll idx f order x i = x i := by
  induction order generalizing x with
  | nil => rfl
  | cons v order ih =>
    change blockAll idx f order (writeCols x (idx v) (f x v)) i = x i
    rw [ih fun u hu => h u (List.mem_cons_of_mem _ hu), writeCols_of_not_mem (h v List.mem_cons_self)]

/-- What the blocks are required to be: disjoint, and the block of `v` is computed from those of `P v` and from the
columns `K`, which belong to no block. -/
structure Blocks (all : List N) (P : N → List N) (K : ℕ → Prop) (idx : N → List ℕ) (f : (ℕ → V) → N → List V) : Prop where
  const : ∀ i, K i → ∀ u ∈ all, i ∉ idx u
  disjoint : ∀ u ∈ all, ∀ v ∈ all, u ≠ v → ∀ i ∈ idx u, i ∉ idx v
  nodup : ∀ v ∈ all, (idx v).Nodup
  length : ∀ x, ∀ v ∈ all, (f x v).length = (idx v).length
  parents : ∀ v ∈ all, ∀ u ∈ P v, u ∈ all
  dep : ∀ v ∈ all, ∀ x y : ℕ → V, (∀ u ∈ P v, ∀ i ∈ idx u, x i = y i) → (∀ i, K i → x i = y i) →
    f x v = f y v

/-- At the end every block is what `f` computes from the final values. -/
theorem blockAll_fixed {all : List N} {P : N → List N} {K : ℕ → Prop} {idx : N → List ℕ} {f : (ℕ → V) → N → List V}
    (B : Blocks all P K idx f) {order : List N} (ho : ∀ v ∈ order, v ∈ all) (hnd : order.Nodup)
    (hself : ∀ v ∈ order, v ∉ P v) (hf : order.Pairwise fun a b => b ∉ P a) (x : ℕ → V) {v : N} (hv : v ∈ order) :
    (idx v).map (blockAll idx f order x) = f (blockAll idx f order x) v := by
  induction order generalizing x with
  | nil => exact absurd hv (by simp)
  | cons k order ih =>
    obtain ⟨hk, hnd⟩ := List.nodup_cons.1 hnd
    obtain ⟨hk', hf⟩ := List.pairwise_cons.1 hf
    have hka := ho k List.mem_cons_self
    have hoa : ∀ v ∈ order, v ∈ all := fun v hv => ho v (List.mem_cons_of_mem _ hv)
    change (idx v).map (blockAll idx f order (writeCols x (idx k) (f x k))) =
      f (blockAll idx f order (writeCols x (idx k) (f x k))) v
    rcases List.mem_cons.1 hv with rfl | hv
    · have h1 : (idx v).map (blockAll idx f order (writeCols x (idx v) (f x v))) = f x v := by
        rw [List.map_congr_left (g := writeCols x (idx v) (f x v)), map_writeCols (B.nodup v hka) (B.length x v hka)]
        intro i hi
        refine blockAll_of_not_mem fun u hu => B.disjoint v hka u (hoa u hu) ?_ i hi
        rintro rfl
        exact hk hu
      rw [h1]
      refine B.dep v hka _ _ ?_ ?_
      · intro u hu i hi
        have hua := B.parents v hka u hu
        have huv : u ≠ v := by
          rintro rfl
          exact hself u List.mem_cons_self hu
        rw [blockAll_of_not_mem, writeCols_of_not_mem (B.disjoint u hua v hka huv i hi)]
        intro w hw
        refine B.disjoint u hua w (hoa w hw) ?_ i hi
        rintro rfl
        exact hk' u hw hu
      · intro i hi
        rw [blockAll_of_not_mem fun u hu => B.const i hi u (hoa u hu), writeCols_of_not_mem (B.const i hi v hka)]
    · exact ih hoa hnd (fun v hv => hself v (List.mem_cons_of_mem _ hv)) hf _ hv

/-- There is only one such assignment. -/
theorem blocks_unique {all : List N} {P : N → List N} {K : ℕ → Prop} {idx : N → List ℕ} {f : (ℕ → V) → N → List V}
    (B : Blocks all P K idx f) {order : List N} (ho : ∀ v, v ∈ order ↔ v ∈ all)
    (hself : ∀ v ∈ order, v ∉ P v) (hf : order.Pairwise fun a b => b ∉ P a) {x y : ℕ → V}
    (hx : ∀ v ∈ all, (idx v).map x = f x v) (hy : ∀ v ∈ all, (idx v).map y = f y v)
    (hxy : ∀ i, K i → x i = y i) : ∀ v ∈ all, ∀ i ∈ idx v, x i = y i := by
  have key : ∀ l₁ l₂ : List N, order = l₁ ++ l₂ → ∀ v ∈ l₁, ∀ i ∈ idx v, x i = y i := by
    intro l₁
    induction l₁ using List.reverseRecOn with
    | nil => intro _ _ v hv; exact absurd hv (by simp)
    | append_singleton l k ih =>
      intro l₂ h v hv
      have ih := ih (k :: l₂) (by rw [h]; simp)
      rcases List.mem_append.1 hv with hv | hv
      · exact ih v hv
      · rw [List.mem_singleton] at hv
        subst hv
        have hvo : v ∈ order := by rw [h]; simp
        have hva := (ho v).1 hvo
        have hmap : (idx v).map x = (idx v).map y := by
          rw [hx v hva, hy v hva]
          refine B.dep v hva _ _ ?_ hxy
          intro u hu i hi
          have huo : u ∈ order := (ho u).2 (B.parents v hva u hu)
          rw [h, List.append_assoc, List.mem_append, List.singleton_append, List.mem_cons] at huo
          rw [h, List.append_assoc, List.pairwise_append] at hf
          rcases huo with h1 | rfl | h1
          · exact ih u h1 i hi
          · exact absurd hu (hself u hvo)
          · exact absurd hu ((List.pairwise_cons.1 hf.2.1).1 u h1)
        intro i hi
        exact List.map_inj_left.1 hmap i hi
  exact fun v hv => key order [] (by simp) v ((ho v).2 hv)

end

end Verif.Generators
