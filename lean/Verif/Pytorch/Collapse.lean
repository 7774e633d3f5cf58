import Verif.Notears.Acyclic
import Verif.Pytorch.MlpProps
import Verif.Pytorch.ExpandNames

/-!
# Collapsing expanded columns; the acyclicity score of the network (C62)
-/

namespace Verif.Pytorch

/-- `collapse_adj` and `modify_h` for the columns `group`: the rows of the further columns are added to the first row, then the
columns to the first column: `dist_type/categorical.py:145-193`. -/
noncomputable def collapseGroup (group : List ℕ) (A : ℕ → ℕ → ℝ) : ℕ → ℕ → ℝ :=
  let orig := group.headD 0
  let B : ℕ → ℕ → ℝ := fun i j => if i = orig then A orig j + (group.tail.map fun k => A k j).sum else A i j
  fun i j => if j = orig then B i orig + (group.tail.map fun k => B i k).sum else B i j

/-- `collapse_adj`, `modify_h` of a type: `dist_type/categorical.py:145-193`, `dist_type/_base.py:150-177`. -/
noncomputable def Enc.collapse (e : Enc) (A : ℕ → ℕ → ℝ) : ℕ → ℕ → ℝ :=
  match e with
  | .cat _ group _ => collapseGroup group A
  | _ => A

/-- All types in turn: `structure/pytorch/core.py:434-436`, `structure/pytorch/notears.py:221-222`. -/
noncomputable def collapseAll (es : List Enc) (A : ℕ → ℕ → ℝ) : ℕ → ℕ → ℝ := es.foldl (fun A e => e.collapse A) A

/-- The matrix of squared weights of the first layer, from `i` to `j`: `structure/pytorch/core.py:427-430`. -/
noncomputable def squareWeights (a : Arch) (n : Net) (i j : ℕ) : ℝ :=
  ∑ h ∈ Finset.range a.m1, n.weight.getD ((j * a.m1 + h) * a.d + i) 0 * n.weight.getD ((j * a.m1 + h) * a.d + i) 0

/-- The number of original columns: `structure/pytorch/core.py:440`. -/
def originalSize (es : List Enc) : ℕ := (es.map Enc.idx).foldl max 0 + 1

/-- `_h_func`: `structure/pytorch/core.py:415-453`. -/
noncomputable def hFunc (a : Arch) (es : List Enc) (n : Net) : ℝ :=
  Notears.polyScore (V := Fin (originalSize es)) (Matrix.of fun i j => collapseAll es (squareWeights a n) i j)

/-! ### Block sums -/

/-- The sum of a block. -/
noncomputable def blockSum (A : ℕ → ℕ → ℝ) (l m : List ℕ) : ℝ := (l.map fun a => (m.map fun b => A a b).sum).sum

theorem collapse_eq (e : Enc) (A : ℕ → ℕ → ℝ) : e.collapse A = collapseGroup e.cols A := by
  have plain : ∀ i, collapseGroup [i] A = A := by
    intro i
    funext a b
    simp only [collapseGroup, List.headD_cons, List.tail_cons, List.map_nil, List.sum_nil, add_zero]
    split_ifs with h1 h2 h2 <;> simp_all
  cases e with
  | cat i g cats => rfl
  | cont i => exact (plain i).symm
  | bin i => exact (plain i).symm
  | poiss i => exact (plain i).symm
  | ord i cats counts => exact (plain i).symm

theorem collapseGroup_entry (c : ℕ) (r : List ℕ) (hn : (c :: r).Nodup) (A : ℕ → ℕ → ℝ) (i j : ℕ) :
    collapseGroup (c :: r) A i j = blockSum A (if i = c then c :: r else [i]) (if j = c then c :: r else [j]) := by
  have hc : c ∉ r := (List.nodup_cons.1 hn).1
  have hB : ∀ i j, (if i = c then A c j + (r.map fun k => A k j).sum else A i j) =
      ((if i = c then c :: r else [i]).map fun a => A a j).sum := by
    intro i j
    split_ifs with h <;> simp
  change (if j = c then (if i = c then A c c + (r.map fun k => A k c).sum else A i c) +
      (r.map fun k => (if i = c then A c k + (r.map fun l => A l k).sum else A i k)).sum
    else (if i = c then A c j + (r.map fun k => A k j).sum else A i j)) = _
  rw [blockSum]
  by_cases hj : j = c
  · subst hj
    rw [if_pos rfl, if_pos rfl, hB i j, List.map_congr_left (fun k _ => hB i k)]
    generalize (if i = j then j :: r else [i]) = l
    clear hB hn hc
    induction l with
    | nil => simp
    | cons x l ih =>
      simp only [List.map_cons, List.sum_cons, List.sum_map_add] at ih ⊢
      rw [← ih]; ring
  · rw [if_neg hj, if_neg hj, hB i j]
    simp

/-- The columns collapsed into the column `i`. -/
def Covers (es : List Enc) (i : ℕ) (l : List ℕ) : Prop :=
  (∃ e ∈ es, i = e.idx ∧ l = e.cols) ∨ (i ∉ es.flatMap Enc.cols ∧ l = [i])

theorem collapseAll_covers (es : List Enc) : ∀ (A : ℕ → ℕ → ℝ), (es.flatMap Enc.cols).Nodup → (∀ e ∈ es, e.cols.head? = some e.idx) →
    ∀ i j l m, Covers es i l → Covers es j m → collapseAll es A i j = blockSum A l m := by
  induction es with
  | nil =>
    intro A _ _ i j l m hi hj
    rcases hi with ⟨e, he, _⟩ | ⟨-, rfl⟩
    · simp at he
    rcases hj with ⟨e, he, _⟩ | ⟨-, rfl⟩
    · simp at he
    simp [collapseAll, blockSum]
  | cons e es ih =>
    intro A hn hh i j l m hi hj
    rw [List.flatMap_cons, List.nodup_append] at hn
    obtain ⟨hn1, hn2, hn3⟩ := hn
    have hhe := hh e List.mem_cons_self
    obtain ⟨r, hr⟩ : ∃ r, e.cols = e.idx :: r := by
      cases hc : e.cols with
      | nil => rw [hc] at hhe; simp at hhe
      | cons x r => rw [hc] at hhe; simp only [List.head?_cons, Option.some.injEq] at hhe; exact ⟨r, by rw [hhe]⟩
    have hidx : e.idx ∉ es.flatMap Enc.cols := fun hm => hn3 e.idx (by rw [hr]; exact List.mem_cons_self) _ hm rfl
    -- what is covered by the later types, in the matrix after the first one
    have split : ∀ i l, Covers (e :: es) i l → ∃ l', Covers es i l' ∧
        (l'.flatMap fun a => if a = e.idx then e.cols else [a]) = l := by
      intro i l hi
      have keep : ∀ l : List ℕ, e.idx ∉ l → (l.flatMap fun a => if a = e.idx then e.cols else [a]) = l := by
        intro l hl
        induction l with
        | nil => rfl
        | cons x l ihl =>
          rw [List.mem_cons, not_or] at hl
          rw [List.flatMap_cons, ihl hl.2, if_neg (Ne.symm hl.1)]; rfl
      rcases hi with ⟨f, hf, rfl, rfl⟩ | ⟨hi, rfl⟩
      · rcases List.mem_cons.1 hf with rfl | hf
        · exact ⟨[f.idx], Or.inr ⟨hidx, rfl⟩, by simp⟩
        · refine ⟨f.cols, Or.inl ⟨f, hf, rfl, rfl⟩, keep _ fun hm => hidx (List.mem_flatMap.2 ⟨f, hf, hm⟩)⟩
      · rw [List.flatMap_cons, List.mem_append, not_or] at hi
        refine ⟨[i], Or.inr ⟨hi.2, rfl⟩, keep _ ?_⟩
        rw [List.mem_singleton]
        rintro rfl
        exact hi.1 (by rw [hr]; exact List.mem_cons_self)
    obtain ⟨l', hl', rfl⟩ := split i l hi
    obtain ⟨m', hm', rfl⟩ := split j m hj
    have := ih (e.collapse A) hn2 (fun f hf => hh f (List.mem_cons_of_mem _ hf)) i j l' m' hl' hm'
    change collapseAll es (e.collapse A) i j = _
    rw [this, collapse_eq, hr]
    unfold blockSum
    have hent := collapseGroup_entry e.idx r (by rw [← hr]; exact hn1) A
    have sumFlat : ∀ (F : ℕ → ℝ) (g : ℕ → List ℕ) (l : List ℕ), ((l.flatMap g).map F).sum = (l.map fun a => ((g a).map F).sum).sum := by
      intro F g l
      induction l with
      | nil => rfl
      | cons x l ihl => rw [List.flatMap_cons, List.map_append, List.sum_append, ihl, List.map_cons, List.sum_cons]
    rw [sumFlat]
    congr 1
    refine List.map_congr_left fun a _ => ?_
    have h2 : ∀ b, ((m'.flatMap fun a => if a = e.idx then e.idx :: r else [a]).map fun c => A b c).sum =
        (m'.map fun c => ((if c = e.idx then e.idx :: r else [c]).map fun d => A b d).sum).sum := fun b => sumFlat _ _ _
    simp only [h2, hent, blockSum]
    generalize (if a = e.idx then e.idx :: r else [a]) = p
    clear hi hj this hm' hl' h2 sumFlat split hent
    induction p with
    | nil => simp
    | cons x p ihp =>
      simp only [List.map_cons, List.sum_cons, List.sum_map_add] at ihp ⊢
      rw [ihp]

end Verif.Pytorch
