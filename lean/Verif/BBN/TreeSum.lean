import Verif.BBN.Sum
import Verif.BBN.Model

/-!
# Message passing on a rooted tree: the algebra

`RF` is a rooted forest in first-child / next-sibling form.  A forest hanging below clique `s`
represents the neighbours of `s` that are visited from `s`, with everything below them.
-/

namespace Verif.BBN

/-- Rooted forest: a root with its children, and its siblings. -/
inductive RF
  | nil
  | cons (i : ℕ) (kids sibs : RF)

namespace RF

/-- Roots, in order. -/
def roots : RF → List ℕ
  | nil => []
  | cons i _ sibs => i :: sibs.roots

/-- All labels. -/
def labels : RF → List ℕ
  | nil => []
  | cons i kids sibs => i :: (kids.labels ++ sibs.labels)

theorem roots_subset (f : RF) : ∀ i ∈ f.roots, i ∈ f.labels := by
  induction f with
  | nil => simp [roots]
  | cons i kids sibs _ ih =>
    intro j hj
    rcases List.mem_cons.1 hj with rfl | hj
    · simp [labels]
    · simp [labels, ih j hj]

variable {V S K : Type} [LinearOrder V]

/-- Variables of all cliques of the forest. -/
def vars (cl : List (Finset V)) : RF → Finset V
  | nil => ∅
  | cons i kids sibs => clq cl i ∪ kids.vars cl ∪ sibs.vars cl

/-- Product of the potentials of all cliques of the forest. -/
def prodF [Field K] (φ : ℕ → (V → S) → K) : RF → (V → S) → K
  | nil, _ => 1
  | cons i kids sibs, x => φ i x * kids.prodF φ x * sibs.prodF φ x

/-- Product of the messages the roots of the forest send to `s`. -/
def msgs [Field K] (dom : V → List S) (cl : List (Finset V)) (φ : ℕ → (V → S) → K) :
    ℕ → RF → (V → S) → K
  | _, nil, _ => 1
  | s, cons i kids sibs, x =>
    sumF dom (clq cl i \ clq cl s) (fun y => φ i y * kids.msgs dom cl φ i y) x *
      sibs.msgs dom cl φ s x

/-- Running intersection: what a subtree shares with everything outside it (`O` collects the
variables outside the whole forest) lies in the separator to its parent. -/
def Rip (cl : List (Finset V)) : ℕ → Finset V → RF → Prop
  | _, _, nil => True
  | s, O, cons i kids sibs =>
    (clq cl i ∪ kids.vars cl) ∩ (O ∪ sibs.vars cl) ⊆ clq cl s ∩ clq cl i ∧
    Rip cl i (O ∪ sibs.vars cl ∪ clq cl i) kids ∧
    Rip cl s (O ∪ (clq cl i ∪ kids.vars cl)) sibs

variable [Field K] {dom : V → List S} {cl : List (Finset V)} {φ : ℕ → (V → S) → K}

theorem prodF_dependsOn (hφ : ∀ i, DependsOn (φ i) (clq cl i : Set V)) (f : RF) :
    DependsOn (f.prodF φ) (f.vars cl : Set V) := by
  induction f with
  | nil => intro x y _; rfl
  | cons i kids sibs ihk ihs =>
    intro x y h
    simp only [prodF]
    rw [hφ i (fun v hv => h v ?_), ihk (fun v hv => h v ?_), ihs (fun v hv => h v ?_)]
    · simp only [vars, Finset.coe_union, Set.mem_union]; exact Or.inr hv
    · simp only [vars, Finset.coe_union, Set.mem_union]; exact Or.inl (Or.inr hv)
    · simp only [vars, Finset.coe_union, Set.mem_union]; exact Or.inl (Or.inl hv)

theorem sumF_congr' {A B : Finset V} (h : A = B) {f g : (V → S) → K} (hfg : ∀ x, f x = g x)
    (x : V → S) : sumF dom A f x = sumF dom B g x := by
  subst h
  exact sumOver_congr dom hfg x

/-- Sum of a product of two functions with disjoint private variables. -/
theorem sumF_mul_split {A B : Finset V} {f g : (V → S) → K} {Df Dg : Finset V}
    (hf : DependsOn f (Df : Set V)) (hg : DependsOn g (Dg : Set V)) (hAB : Disjoint A B)
    (hAg : Disjoint A Dg) (hBf : Disjoint B Df) (x : V → S) :
    sumF dom (A ∪ B) (fun y => f y * g y) x = sumF dom A f x * sumF dom B g x := by
  rw [sumF_union dom hAB]
  have h1 : ∀ y, sumF dom B (fun y => f y * g y) y = f y * sumF dom B g y := fun y =>
    sumF_mul_left dom hf (fun v hv hv' => Finset.disjoint_left.1 hBf hv hv') y
  rw [sumF_congr' rfl h1]
  apply sumF_mul_right dom (A := (Dg : Set V))
  · exact sumF_dependsOn dom B hg fun v hv _ => hv
  · intro v hv hv'
    exact Finset.disjoint_left.1 hAg hv hv'

theorem Rip.mono {s : ℕ} {O O' : Finset V} {f : RF} (h : Rip cl s O f) (hO : O' ⊆ O) :
    Rip cl s O' f := by
  induction f generalizing s O O' with
  | nil => trivial
  | cons i kids sibs ihk ihs =>
    obtain ⟨h1, h2, h3⟩ := h
    refine ⟨?_, ihk h2 ?_, ihs h3 ?_⟩
    · exact (Finset.inter_subset_inter_left (Finset.union_subset_union_left hO)).trans h1
    · exact Finset.union_subset_union_left (Finset.union_subset_union_left hO)
    · exact Finset.union_subset_union_left hO

/-- Variables of a forest shared with the outside lie in the clique it hangs from. -/
theorem Rip.vars_inter {s : ℕ} {O : Finset V} {f : RF} (h : Rip cl s O f) :
    f.vars cl ∩ O ⊆ clq cl s := by
  induction f generalizing s O with
  | nil => simp [vars]
  | cons i kids sibs _ ihs =>
    obtain ⟨h1, _, h3⟩ := h
    intro v hv
    rw [Finset.mem_inter, vars, Finset.mem_union] at hv
    obtain ⟨hv | hv, hO⟩ := hv
    · exact (Finset.mem_inter.1 (h1 (Finset.mem_inter.2 ⟨hv, Finset.mem_union_left _ hO⟩))).1
    · exact ihs h3 (Finset.mem_inter.2 ⟨hv, Finset.mem_union_left _ hO⟩)

/-- The messages collected at `s` are the sum of everything below `s`. -/
theorem msgs_eq (hφ : ∀ i, DependsOn (φ i) (clq cl i : Set V)) {s : ℕ} {O : Finset V} {f : RF}
    (hr : Rip cl s O f) (hs : clq cl s ⊆ O) (x : V → S) :
    f.msgs dom cl φ s x = sumF dom (f.vars cl \ clq cl s) (f.prodF φ) x := by
  induction f generalizing s O x with
  | nil => simp [msgs, vars, prodF, sumF, sumOver]
  | cons i kids sibs ihk ihs =>
    obtain ⟨h1, h2, h3⟩ := hr
    have hki := h2.vars_inter
    -- message of the first subtree
    have e1 : sumF dom (clq cl i \ clq cl s) (fun y => φ i y * kids.msgs dom cl φ i y) x =
        sumF dom ((clq cl i ∪ kids.vars cl) \ clq cl s) (fun y => φ i y * kids.prodF φ y) x := by
      have hset : (clq cl i ∪ kids.vars cl) \ clq cl s =
          (clq cl i \ clq cl s) ∪ (kids.vars cl \ clq cl i) := by
        ext v
        simp only [Finset.mem_sdiff, Finset.mem_union]
        constructor
        · rintro ⟨h | h, hn⟩
          · exact Or.inl ⟨h, hn⟩
          · by_cases hi : v ∈ clq cl i
            · exact Or.inl ⟨hi, hn⟩
            · exact Or.inr ⟨h, hi⟩
        · rintro (⟨h, hn⟩ | ⟨h, hi⟩)
          · exact ⟨Or.inl h, hn⟩
          · refine ⟨Or.inr h, fun hvs => hi ?_⟩
            exact (Finset.mem_inter.1 (h1 (Finset.mem_inter.2 ⟨Finset.mem_union_right _ h,
              Finset.mem_union_left _ (hs hvs)⟩))).2
      have hdisj : Disjoint (clq cl i \ clq cl s) (kids.vars cl \ clq cl i) := by
        rw [Finset.disjoint_left]
        intro v hv hv'
        exact (Finset.mem_sdiff.1 hv').2 (Finset.mem_sdiff.1 hv).1
      rw [sumF_congr' hset (fun _ => rfl), sumF_union dom hdisj]
      refine sumF_congr' rfl (fun y => ?_) x
      rw [ihk h2 Finset.subset_union_right,
        sumF_mul_left dom (hφ i) (fun v hv hv' => (Finset.mem_sdiff.1 hv).2 hv')]
    rw [msgs, e1, ihs h3 (hs.trans Finset.subset_union_left)]
    have hset : (cons i kids sibs).vars cl \ clq cl s =
        ((clq cl i ∪ kids.vars cl) \ clq cl s) ∪ (sibs.vars cl \ clq cl s) := by
      rw [vars, Finset.union_sdiff_distrib]
    have hcross : ∀ v, v ∈ clq cl i ∪ kids.vars cl → v ∈ sibs.vars cl → v ∈ clq cl s := by
      intro v hv hv'
      exact (Finset.mem_inter.1 (h1 (Finset.mem_inter.2 ⟨hv, Finset.mem_union_right _ hv'⟩))).1
    rw [sumF_congr' hset (g := fun y => (φ i y * kids.prodF φ y) * sibs.prodF φ y)
      (fun y => by simp only [prodF])]
    rw [sumF_mul_split (Df := clq cl i ∪ kids.vars cl) (Dg := sibs.vars cl)]
    · intro a b h
      simp only
      rw [hφ i (fun v hv => h v ?_), prodF_dependsOn hφ kids (fun v hv => h v ?_)]
      · simp only [Finset.coe_union, Set.mem_union]; exact Or.inr hv
      · simp only [Finset.coe_union, Set.mem_union]; exact Or.inl hv
    · exact prodF_dependsOn hφ sibs
    · rw [Finset.disjoint_left]
      intro v hv hv'
      rw [Finset.mem_sdiff] at hv hv'
      exact hv.2 (hcross v hv.1 hv'.1)
    · rw [Finset.disjoint_left]
      intro v hv hv'
      rw [Finset.mem_sdiff] at hv
      exact hv.2 (hcross v hv.1 hv')
    · rw [Finset.disjoint_left]
      intro v hv hv'
      rw [Finset.mem_sdiff] at hv
      exact hv.2 (hcross v hv' hv.1)

/-- The downward step.  `A` is the product below clique `i` (variables `sub`), `B` the product of
everything else (variables `R`); they share only the separator `L`. -/
theorem down_step {A B p : (V → S) → K} {sub R Ci L U : Finset V}
    (hp : ∀ x, p x = A x * B x)
    (hA : DependsOn A (sub : Set V)) (hB : DependsOn B (R : Set V))
    (hU : U = sub ∪ R) (hsep : sub ∩ R ⊆ L) (hL : L ⊆ Ci) (hCi : Ci ⊆ sub)
    (hRL : ∀ v ∈ R, v ∈ Ci → v ∈ L) (x : V → S) :
    sumF dom (U \ Ci) p x = sumF dom (sub \ Ci) A x * sumF dom (R \ L) B x ∧
    sumF dom (U \ L) p x = sumF dom (sub \ L) A x * sumF dom (R \ L) B x := by
  have key : ∀ C, L ⊆ C → C ⊆ Ci →
      sumF dom (U \ C) p x = sumF dom (sub \ C) A x * sumF dom (R \ L) B x := by
    intro C hLC hCC
    have hset : U \ C = (sub \ C) ∪ (R \ L) := by
      subst hU
      ext v
      simp only [Finset.mem_sdiff, Finset.mem_union]
      constructor
      · rintro ⟨h | h, hn⟩
        · exact Or.inl ⟨h, hn⟩
        · exact Or.inr ⟨h, fun hl => hn (hLC hl)⟩
      · rintro (⟨h, hn⟩ | ⟨h, hn⟩)
        · exact ⟨Or.inl h, hn⟩
        · exact ⟨Or.inr h, fun hc => hn (hRL v h (hCC hc))⟩
    have hx : ∀ v, v ∈ sub → v ∈ R → v ∈ L := fun v h h' => hsep (Finset.mem_inter.2 ⟨h, h'⟩)
    rw [sumF_congr' hset hp, sumF_mul_split hA hB]
    · rw [Finset.disjoint_left]
      intro v hv hv'
      rw [Finset.mem_sdiff] at hv hv'
      exact hv'.2 (hx v hv.1 hv'.1)
    · rw [Finset.disjoint_left]
      intro v hv hv'
      rw [Finset.mem_sdiff] at hv
      exact hv.2 (hLC (hx v hv.1 hv'))
    · rw [Finset.disjoint_left]
      intro v hv hv'
      rw [Finset.mem_sdiff] at hv
      exact hv.2 (hx v hv' hv.1)
  exact ⟨key Ci hL (Finset.Subset.refl _), key L (Finset.Subset.refl _) hL⟩

end RF

end Verif.BBN
