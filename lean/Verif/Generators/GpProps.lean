import Verif.Generators.Gp
import Mathlib.Data.List.GetD

/-!
# The Gaussian process sampler returns the values in the order of the rows (C58)
-/

namespace Verif.Generators

/-! ### Lemmas -/

theorem arraySplit_go_flatten {α : Type} (size : ℕ) (k : ℕ) : ∀ (l : List α) (extra : ℕ), extra ≤ k →
    l.length = size * k + extra → (arraySplit.go l size extra k).flatten = l := by
  induction k with
  | zero =>
    intro l extra he hl
    have : l.length = 0 := by omega
    simp [arraySplit.go, List.length_eq_zero_iff.1 this]
  | succ k ih =>
    intro l extra he hl
    rw [arraySplit.go]
    rw [List.flatten_cons, ih _ _ (by omega) ?_, List.take_append_drop]
    rw [List.length_drop, hl]
    have : size * (k + 1) = size * k + size := by ring
    split <;> omega

/-- The pieces together are the whole. -/
theorem arraySplit_flatten {α : Type} (l : List α) {k : ℕ} (hk : k ≠ 0) : (arraySplit l k).flatten = l := by
  unfold arraySplit
  refine arraySplit_go_flatten _ _ _ _ (Nat.mod_lt _ (Nat.pos_of_ne_zero hk)).le ?_
  rw [Nat.mul_comm]
  exact (Nat.div_add_mod _ _).symm

theorem arraySplit_go_length {α : Type} (size : ℕ) (k : ℕ) : ∀ (l : List α) (extra : ℕ), extra ≤ k →
    l.length = size * k + extra → ∀ c ∈ arraySplit.go l size extra k, c.length = size ∨ (extra ≠ 0 ∧ c.length = size + 1) := by
  induction k with
  | zero => intro l extra he hl c hc; simp [arraySplit.go] at hc
  | succ k ih =>
    intro l extra he hl c hc
    have h1 : size * (k + 1) = size * k + size := by ring
    rw [arraySplit.go] at hc
    rcases List.mem_cons.1 hc with rfl | hc
    · rw [List.length_take, hl]
      split
      · left; omega
      · rename_i h; exact Or.inr ⟨h, by omega⟩
    · rcases ih _ _ (by omega) (by rw [List.length_drop, hl]; split <;> omega) c hc with h | ⟨h, h2⟩
      · exact Or.inl h
      · exact Or.inr ⟨by omega, h2⟩

theorem arraySplit_ne_nil {α : Type} (l : List α) {k : ℕ} (hk : k ≠ 0) : arraySplit l k ≠ [] := by
  unfold arraySplit
  cases k with
  | zero => exact absurd rfl hk
  | succ k => simp [arraySplit.go]

/-- The sizes of the pieces. -/
theorem arraySplit_length {α : Type} (l : List α) {m : ℕ} (hm : 2 ≤ m) (hl : m < l.length) :
    ∀ c ∈ arraySplit l (l.length / m + 1), c ≠ [] ∧ c.length ≤ m := by
  intro c hc
  have h := arraySplit_go_length _ _ l _ (Nat.mod_lt _ (Nat.succ_pos _)).le
    (by rw [Nat.mul_comm]; exact (Nat.div_add_mod _ _).symm) c hc
  have h1 : l.length / (l.length / m + 1) < m := by
    rw [Nat.div_lt_iff_lt_mul (Nat.succ_pos _)]
    have := Nat.div_add_mod l.length m
    have h3 := Nat.mod_lt l.length (show m > 0 by omega)
    rw [Nat.mul_succ]
    omega
  have h2 : 0 < l.length / (l.length / m + 1) :=
    Nat.div_pos (Nat.div_lt_self (by omega) (by omega)) (Nat.succ_pos _)
  refine ⟨fun h0 => ?_, ?_⟩
  · rw [h0, List.length_nil] at h
    omega
  · omega

/-- Sorting the positions of a sorting permutation inverts it. -/
theorem argsort_argsort {n : ℕ} {ix rev : List ℕ} (h : ix.Perm (List.range n)) (hr : IsArgsort ix rev) :
    rev.length = n ∧ ∀ i k : ℕ, ix[k]? = some i → rev[i]? = some k := by
  have hlen : ix.length = n := by simpa using h.length_eq
  have hrl : rev.length = n := by rw [← hlen]; simpa using hr.perm.length_eq
  have hmap : rev.map (fun i => ix.getD i 0) = List.range n := by
    have hp : (rev.map fun i => ix.getD i 0).Perm (List.range n) := by
      refine (hr.perm.map _).trans ?_
      rw [show (List.range ix.length).map (fun i => ix.getD i 0) = ix from ?_]
      · exact h
      · refine List.ext_getElem (by simp) fun i h1 h2 => ?_
        simp [h2]
    refine List.Perm.eq_of_pairwise (le := (· ≤ ·)) (fun a b _ _ => Nat.le_antisymm) ?_ ?_ hp
    · rw [List.pairwise_map]
      refine hr.sorted.imp_of_mem ?_
      intro a b ha hb hab
      have ha' : a < ix.length := by simpa using hr.perm.mem_iff.1 ha
      have hb' : b < ix.length := by simpa using hr.perm.mem_iff.1 hb
      have := hab ix[a] (by simp [ha']) ix[b] (by simp [hb'])
      simpa [ha', hb'] using this
    · exact List.pairwise_le_range
  refine ⟨hrl, fun i k hk => ?_⟩
  obtain ⟨hk', rfl⟩ := List.getElem?_eq_some_iff.1 hk
  have hi : ix[k] < n := by simpa using h.mem_iff.1 (List.getElem_mem hk')
  have hi' : ix[k] < rev.length := by omega
  have h1 : ix.getD rev[ix[k]] 0 = ix[k] := by
    have h2 := congrArg (fun l => l[ix[k]]?) hmap
    simpa [hi, hi'] using h2
  have hb : rev[ix[k]] < ix.length := by simpa using hr.perm.mem_iff.1 (List.getElem_mem hi')
  have hnd : ix.Nodup := h.nodup_iff.2 List.nodup_range
  rw [List.getD_eq_getElem _ _ hb] at h1
  rw [List.getElem?_eq_getElem hi', (hnd.getElem_inj_iff).1 h1]

theorem gpChunks_length {C : Type} {S : GpSampler C} (hS : S.Shape) (xs : List (List (List ℝ))) (x0 : List (List ℝ))
    (f0 : List ℝ) (c : C) : (gpChunks S x0 f0 c xs).map List.length = xs.map List.length := by
  induction xs generalizing x0 f0 c with
  | nil => rfl
  | cons x xs ih => simp only [gpChunks, List.map_cons]; rw [hS.next, ih]

theorem gpChunks_draws {C : Type} {S : GpSampler C} {f : List ℝ → ℝ} (hS : S.Draws f) (xs : List (List (List ℝ)))
    (x0 : List (List ℝ)) (f0 : List ℝ) (c : C) : gpChunks S x0 f0 c xs = xs.map (List.map f) := by
  induction xs generalizing x0 f0 c with
  | nil => rfl
  | cons x xs ih => simp only [gpChunks, List.map_cons]; rw [hS.next, ih]

theorem stdDev_perm {y y' : List ℝ} (h : y.Perm y') : stdDev y = stdDev y' := by
  unfold stdDev
  rw [h.sum_eq, h.length_eq]
  dsimp only
  rw [(h.map _).sum_eq]

/-! ### The properties -/

theorem gpIndex_chunks {C : Type} {S : GpSampler C} (hS : S.Shape) {argsort : Argsort} (hA : argsort.Sorts) {maxChunk cols : ℕ}
    (hm : 2 ≤ maxChunk) (hc : cols ≠ 0) {x : List (List ℝ)} (hx : maxChunk < x.length) :
    ∃ (ix : List ℕ) (x0 : List (List ℝ)) (xs : List (List (List ℝ))),
      IsArgsort (x.map fun r => r.getD 0 0) ix ∧
      (x0 :: xs).flatten = ix.map (fun i => x.getD i []) ∧
      (∀ c ∈ x0 :: xs, c ≠ [] ∧ c.length ≤ maxChunk) ∧
      (gpIndex S argsort maxChunk cols x).length = x.length ∧
      ∀ i k : ℕ, ix[k]? = some i → (gpIndex S argsort maxChunk cols x)[i]? =
        (scaleY ((S.first x0).1 :: gpChunks S x0 (S.first x0).1 (S.first x0).2 xs).flatten)[k]? := by
  have hs := hA.real (x.map fun r => r.getD 0 0)
  generalize hix : argsort.real (x.map fun r => r.getD 0 0) = ix at hs
  have hp : ix.Perm (List.range x.length) := by simpa using hs.perm
  have hlen : ix.length = x.length := by simpa using hp.length_eq
  obtain ⟨hrl, hrev⟩ := argsort_argsort hp (hA.nat ix)
  have hgl : (ix.map fun i => x.getD i []).length = x.length := by simp [hlen]
  have hsz := arraySplit_length (ix.map fun i => x.getD i []) hm (by rw [hgl]; exact hx)
  rw [hgl] at hsz
  have hfl := arraySplit_flatten (ix.map fun i => x.getD i []) (k := x.length / maxChunk + 1) (Nat.succ_ne_zero _)
  cases hsp : arraySplit (ix.map fun i => x.getD i []) (x.length / maxChunk + 1) with
  | nil => exact absurd hsp (arraySplit_ne_nil _ (Nat.succ_ne_zero _))
  | cons x0 xs =>
    rw [hsp] at hsz hfl
    have hg : gpIndex S argsort maxChunk cols x = (argsort.nat ix).map fun i =>
        (scaleY ((S.first x0).1 :: gpChunks S x0 (S.first x0).1 (S.first x0).2 xs).flatten).getD i 0 := by
      unfold gpIndex
      rw [if_neg hc, if_neg (by omega)]
      simp only [hix, hsp]
    refine ⟨ix, x0, xs, hs, hfl, hsz, by rw [hg, List.length_map, hrl], fun i k hk => ?_⟩
    have hkl : k < x.length := by
      obtain ⟨h, -⟩ := List.getElem?_eq_some_iff.1 hk
      omega
    have hyl : (scaleY ((S.first x0).1 :: gpChunks S x0 (S.first x0).1 (S.first x0).2 xs).flatten).length = x.length := by
      unfold scaleY
      rw [List.length_map, List.length_flatten, List.map_cons, gpChunks_length hS, hS.first, ← List.map_cons,
        ← List.length_flatten, hfl, hgl]
    rw [hg, List.getElem?_map, hrev i k hk, Option.map_some]
    rw [List.getD_eq_getElem _ _ (by omega), List.getElem?_eq_getElem]

/-- The values drawn for the chunks, and the caches, follow each other. -/
theorem gpChunks_steps {C : Type} (S : GpSampler C) (xs : List (List (List ℝ))) (x0 : List (List ℝ)) (o : List ℝ × C) :
    ∃ out : List (List ℝ × C), out.length = (x0 :: xs).length ∧ out[0]? = some o ∧
      out.map Prod.fst = o.1 :: gpChunks S x0 o.1 o.2 xs ∧
      ∀ i x x' p, (x0 :: xs)[i]? = some x → (x0 :: xs)[i + 1]? = some x' → out[i]? = some p →
        out[i + 1]? = some (S.next x' x p.1 p.2) := by
  induction xs generalizing x0 o with
  | nil =>
    refine ⟨[o], rfl, rfl, rfl, ?_⟩
    intro i x x' p _ h
    simp at h
  | cons x1 xs ih =>
    obtain ⟨out, h1, h2, h3, h4⟩ := ih x1 (S.next x1 x0 o.1 o.2)
    refine ⟨o :: out, by simp [h1], rfl, by rw [List.map_cons, h3]; rfl, ?_⟩
    intro i x x' p hx hx' hp
    cases i with
    | zero =>
      simp at hx hx' hp
      subst hx hx' hp
      simpa using h2
    | succ i =>
      simp only [List.getElem?_cons_succ] at hx hx' hp ⊢
      exact h4 i x x' p hx hx' hp

/-- **C58.** For any way to draw the chunks: the rows are sampled in sorted order, in nonempty chunks of at most
`maxChunk` rows, the first chunk on its own and every other one given the rows of the chunk before it, the values drawn for
these and what is remembered from there; and the value that was drawn for the `k`-th row is returned at the position of that row
in the input, divided by the standard deviation of all values drawn. -/
theorem gpIndex_rows {C : Type} {S : GpSampler C} (hS : S.Shape) {argsort : Argsort} (hA : argsort.Sorts) {maxChunk cols : ℕ}
    (hm : 2 ≤ maxChunk) (hc : cols ≠ 0) {x : List (List ℝ)} (hx : maxChunk < x.length) :
    ∃ (ix : List ℕ) (x0 : List (List ℝ)) (xs : List (List (List ℝ))) (out : List (List ℝ × C)),
      IsArgsort (x.map fun r => r.getD 0 0) ix ∧
      (x0 :: xs).flatten = ix.map (fun i => x.getD i []) ∧
      (∀ c ∈ x0 :: xs, c ≠ [] ∧ c.length ≤ maxChunk) ∧
      out.length = (x0 :: xs).length ∧ out[0]? = some (S.first x0) ∧
      (∀ i c c' p, (x0 :: xs)[i]? = some c → (x0 :: xs)[i + 1]? = some c' → out[i]? = some p →
        out[i + 1]? = some (S.next c' c p.1 p.2)) ∧
      (gpIndex S argsort maxChunk cols x).length = x.length ∧
      ∀ i k : ℕ, ix[k]? = some i → (gpIndex S argsort maxChunk cols x)[i]? =
        ((out.map Prod.fst).flatten[k]?).map (· / stdDev (out.map Prod.fst).flatten) := by
  obtain ⟨ix, x0, xs, h1, h2, h3, h4, h5⟩ := gpIndex_chunks hS hA hm hc hx
  obtain ⟨out, k1, k2, k3, k4⟩ := gpChunks_steps S xs x0 (S.first x0)
  refine ⟨ix, x0, xs, out, h1, h2, h3, k1, k2, k4, h4, ?_⟩
  intro i k hk
  rw [h5 i k hk, k3, scaleY, List.getElem?_map]

/-- **C58**, for a sampler of the values of a function: the result is this function of each row, divided by its
standard deviation, for any number of rows (with or without chunks). -/
theorem gpIndex_function {C : Type} {S : GpSampler C} {f : List ℝ → ℝ} (hS : S.Draws f) {argsort : Argsort} (hA : argsort.Sorts)
    {maxChunk cols : ℕ} (hm : 2 ≤ maxChunk) (hc : cols ≠ 0) (x : List (List ℝ)) :
    gpIndex S argsort maxChunk cols x = x.map fun r => f r / stdDev (x.map f) := by
  by_cases hx : x.length ≤ maxChunk
  · unfold gpIndex
    rw [if_neg hc, if_pos hx, hS.first, scaleY, List.map_map]
    rfl
  · have hsh : S.Shape := ⟨fun x => by rw [hS.first, List.length_map], fun x x' g c => by rw [hS.next, List.length_map]⟩
    obtain ⟨ix, x0, xs, hs, hfl, -, hlen, hval⟩ := gpIndex_chunks hsh hA hm hc (not_le.1 hx)
    have hp : ix.Perm (List.range x.length) := by simpa using hs.perm
    have hy : ((S.first x0).1 :: gpChunks S x0 (S.first x0).1 (S.first x0).2 xs).flatten =
        ix.map fun i => f (x.getD i []) := by
      rw [gpChunks_draws hS, hS.first, ← List.map_cons, ← List.map_flatten, hfl, List.map_map]
      rfl
    rw [hy] at hval
    have hperm : (ix.map fun i => f (x.getD i [])).Perm (x.map f) := by
      refine (hp.map _).trans (List.Perm.of_eq ?_)
      refine List.ext_getElem (by simp) fun i h1 h2 => ?_
      have : i < x.length := by simpa using h2
      simp [this]
    refine List.ext_getElem? fun i => ?_
    by_cases hi : i < x.length
    · have him : i ∈ ix := hp.mem_iff.2 (List.mem_range.2 hi)
      obtain ⟨k, hk, rfl⟩ := List.getElem_of_mem him
      rw [hval ix[k] k (List.getElem?_eq_getElem hk)]
      simp only [scaleY, stdDev_perm hperm, List.getElem?_map, List.getElem?_eq_getElem hk, Option.map_some]
      rw [List.getElem?_eq_getElem hi, List.getD_eq_getElem _ _ hi]
      rfl
    · rw [List.getElem?_eq_none (by omega), List.getElem?_eq_none (by simp; omega)]

/-- Without parents the index is 0. -/
theorem gpIndex_root {C : Type} (S : GpSampler C) (argsort : Argsort) (maxChunk : ℕ) (x : List (List ℝ)) :
    gpIndex S argsort maxChunk 0 x = x.map fun _ => 0 := by
  unfold gpIndex
  rw [if_pos rfl]

/-- What is scaled has standard deviation 1, unless it was constant. -/
theorem scaleY_std {y : List ℝ} (h : stdDev y ≠ 0) : stdDev (scaleY y) = 1 := by
  have hpos : 0 < stdDev y := lt_of_le_of_ne (Real.sqrt_nonneg _) (Ne.symm h)
  have key : ∀ c : ℝ, 0 < c → stdDev (y.map (· / c)) = stdDev y / c := by
    intro c hc
    unfold stdDev
    have hsum : (y.map (· / c)).sum = y.sum / c := by
      simp only [div_eq_mul_inv]
      rw [List.sum_map_mul_right, List.map_id']
    rw [hsum, List.length_map]
    dsimp only
    rw [List.map_map]
    have hsq : (y.map ((fun a => (a - y.sum / c / y.length) ^ 2) ∘ (· / c))).sum =
        (y.map fun a => (a - y.sum / y.length) ^ 2).sum / c ^ 2 := by
      rw [show ((fun a => (a - y.sum / c / y.length) ^ 2) ∘ (· / c)) = fun a => (a - y.sum / y.length) ^ 2 * (c ^ 2)⁻¹ from ?_,
        List.sum_map_mul_right]
      · rw [← div_eq_mul_inv]
      funext a
      simp only [Function.comp_apply]
      field_simp
    rw [hsq, div_right_comm, Real.sqrt_div' _ (by positivity), Real.sqrt_sq hc.le]
  rw [scaleY, key _ hpos, div_self h]

/-! ### A case that meets the hypotheses -/

theorem exists_argsort {α : Type} [LinearOrder α] (a : List α) : ∃ ix, IsArgsort a ix := by
  classical
  let r : Fin a.length → Fin a.length → Prop := fun i j => a[i] ≤ a[j]
  haveI : Std.Total r := ⟨fun i j => le_total _ _⟩
  haveI : IsTrans _ r := ⟨fun i j k => le_trans⟩
  refine ⟨((List.finRange a.length).insertionSort r).map Fin.val, ?_, ?_⟩
  · refine ((List.perm_insertionSort _ _).map _).trans (List.Perm.of_eq ?_)
    exact List.map_coe_finRange_eq_range
  · rw [List.pairwise_map]
    refine (List.pairwise_insertionSort r _).imp ?_
    intro i j hij x hx y hy
    simp only [Fin.is_lt, List.getElem?_eq_getElem, Option.mem_def, Option.some.injEq] at hx hy
    rw [← hx, ← hy]
    exact hij

theorem exists_sorts : ∃ s : Argsort, s.Sorts := by
  choose f hf using fun a : List ℝ => exists_argsort a
  choose g hg using fun a : List ℕ => exists_argsort a
  exact ⟨⟨f, g⟩, hf, hg⟩

-- 201 rows (three chunks), a sampler that draws the square of the first column
example : ∃ (argsort : Argsort), argsort.Sorts ∧
    gpIndex (C := Unit) ⟨fun x => (x.map fun r => r.getD 0 0 ^ 2, ()), fun x _ _ _ => (x.map fun r => r.getD 0 0 ^ 2, ())⟩ argsort 100 1
      ((List.range 201).map fun i => [(100 : ℝ) - i]) =
    ((List.range 201).map fun i => [(100 : ℝ) - i]).map fun r => r.getD 0 0 ^ 2 / stdDev (((List.range 201).map fun i => [(100 : ℝ) - i]).map fun r => r.getD 0 0 ^ 2) := by
  obtain ⟨s, hs⟩ := exists_sorts
  exact ⟨s, hs, gpIndex_function (f := fun r => r.getD 0 0 ^ 2) ⟨fun _ => rfl, fun _ _ _ _ => rfl⟩ hs (by norm_num) one_ne_zero _⟩

example : stdDev [1, 3] ≠ 0 := by
  norm_num [stdDev]

end Verif.Generators
