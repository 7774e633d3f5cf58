import Verif.Notears.Reorder

/-!
# Concrete cases for `Verif.Notears.Reorder`
-/

namespace Verif.Notears

/-- The nearest number within a bound. -/
noncomputable def clip (b : Bound ℝ) (x : ℝ) : ℝ :=
  let y := match b.1 with | none => x | some l => max l x
  match b.2 with | none => y | some u => min u y

/-- A step against the gradient, clipped to the bounds, taken if it lowers the objective. -/
noncomputable def descend : Minimizer ℝ := fun _ f g w b =>
  let w' := List.zipWith clip b (List.zipWith (fun x y => x - y) w (g w))
  if f w' < f w then w' else w

theorem Reordered.zipWith {α β γ : Type} {n : ℕ} {π : Equiv.Perm (Fin n)} {u u' : List α} {v v' : List β}
    (f : α → β → γ) (hu : Reordered π u u') (hv : Reordered π v v') :
    Reordered π (List.zipWith f u v) (List.zipWith f u' v') := by
  refine ⟨by simp [hu.length, hv.length], by simp [hu.length', hv.length'], fun k => ?_⟩
  rw [List.getElem?_zipWith, List.getElem?_zipWith, hu.entry, hv.entry]

theorem descend_orderBlind : OrderBlind descend := by
  intro n π k f f' g g' w w' b b' hfg hw hb
  have h := hb.zipWith clip (hw.zipWith (fun x y => x - y) (hfg _ _ hw).2)
  unfold descend
  dsimp only
  rw [(hfg _ _ h).1, (hfg _ _ hw).1]
  split
  · exact h
  · exact hw

/-- Three columns and two rows. -/
noncomputable def frameABC : DataFrame String ℝ where
  cols := ["a", "b", "c"]
  numeric := [true, true, true]
  rows := 2
  entry i j := some ((i : ℝ) + 2 * j)

/-- The columns in the order `b`, `c`, `a`; the rows swapped. -/
noncomputable def frameBCA : DataFrame String ℝ where
  cols := ["b", "c", "a"]
  numeric := [true, true, true]
  rows := 2
  entry i j := some (((if i = 0 then 1 else 0 : ℕ) : ℝ) + 2 * ((j + 1) % 3 : ℕ))

/-- The next column. -/
def nextCol : Equiv.Perm (Fin 3) := ⟨fun j => j + 1, fun j => j + 2, by decide, by decide⟩

theorem frames_same : SameFrame frameABC frameBCA := by
  refine ⟨rfl, (Equiv.swap 0 1 : Equiv.Perm (Fin 2)), nextCol, ⟨rfl, rfl, ?_⟩, ⟨rfl, rfl, ?_⟩, ?_⟩
  · show ∀ k : Fin 3, (["b", "c", "a"] : List String)[(k : ℕ)]? = ["a", "b", "c"][(nextCol k : ℕ)]?
    decide
  · show ∀ k : Fin 3, ([true, true, true] : List Bool)[(k : ℕ)]? = [true, true, true][(nextCol k : ℕ)]?
    decide
  · show ∀ (i : Fin 2) (j : Fin 3), frameBCA.entry i j = frameABC.entry (Equiv.swap (0 : Fin 2) 1 i) (nextCol j)
    intro i j
    have hi : ((Equiv.swap (0 : Fin 2) 1 i : Fin 2) : ℕ) = if (i : ℕ) = 0 then 1 else 0 := by
      revert i; decide
    have hj : ((nextCol j : Fin 3) : ℕ) = ((j : ℕ) + 1) % 3 := by revert j; decide
    simp only [frameBCA, frameABC]
    rw [hi, hj]

/-- The hypotheses of `fromPandas_order` are met. -/
example (a : Params ℝ String) := fromPandas_order descend_orderBlind frames_same (by decide) a 21

example (a : Params ℝ String) := fromPandasLasso_order descend_orderBlind frames_same (by decide) 0.1 a 21

/-- An optimiser that does not treat all coordinates alike. -/
example : ¬ OrderBlind (fun _ _ _ w _ => w.set 0 1 : Minimizer ℝ) := by
  intro h
  have hr : ∀ {α : Type} (x : α), Reordered (Equiv.swap (0 : Fin 2) 1) [x, x] [x, x] := by
    intro α x
    refine ⟨rfl, rfl, fun k => ?_⟩
    fin_cases k <;> simp
  have := (h 2 (Equiv.swap 0 1) 0 (fun _ => 0) (fun _ => 0) id id [0, 0] [0, 0] [(none, none), (none, none)]
    [(none, none), (none, none)] (fun u u' hu => ⟨rfl, hu⟩) (hr 0) (hr _)).entry 0
  simp at this

end Verif.Notears
