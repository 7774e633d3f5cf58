import Mathlib.Logic.Relation
import Mathlib.Data.Finset.Max
import Mathlib.Data.Finset.Prod
import Mathlib.Order.Basic
import Verif.Graph.Basic

/-!
# Markov equivalent graphs

Two acyclic graphs with the same links and the same colliders can be transformed into each other by turning around one covered arrow after
the other.
-/

namespace Verif.Graph

open Relation

section
variable {V : Type*}

/-! ## Specification -/

/-- An arrow in one of the two directions. -/
def Linked (R : V → V → Prop) (a b : V) : Prop := R a b ∨ R b a

/-- `a → c ← b`, where `a` and `b` are two nodes without a link. -/
def Collider (R : V → V → Prop) (a c b : V) : Prop := R a c ∧ R b c ∧ a ≠ b ∧ ¬ Linked R a b

/-- The same links and the same colliders. -/
structure Equivalent (R R' : V → V → Prop) : Prop where
  links : ∀ a b, Linked R a b ↔ Linked R' a b
  colliders : ∀ a c b, Collider R a c b ↔ Collider R' a c b

/-! ## Turning covered arrows around -/

/-- No directed closed walk. -/
def NoCycle (R : V → V → Prop) : Prop := ∀ v, ¬ TransGen R v v

/-- The arrow `x → y` is covered: `y` has the parents of `x`, and `x`. -/
structure Covered (R : V → V → Prop) (x y : V) : Prop where
  arrow : R x y
  parents : ∀ z, R z y ↔ z = x ∨ R z x

/-- The arrow `x → y` turned around. -/
def Turned (R : V → V → Prop) (x y a b : V) : Prop := R a b ∧ ¬ (a = x ∧ b = y) ∨ a = y ∧ b = x

theorem Equivalent.refl (R : V → V → Prop) : Equivalent R R := ⟨fun _ _ => Iff.rfl, fun _ _ _ => Iff.rfl⟩

theorem Equivalent.symm {R R' : V → V → Prop} (h : Equivalent R R') : Equivalent R' R :=
  ⟨fun a b => (h.links a b).symm, fun a c b => (h.colliders a c b).symm⟩

theorem Equivalent.trans {R R' R'' : V → V → Prop} (h : Equivalent R R') (h' : Equivalent R' R'') : Equivalent R R'' :=
  ⟨fun a b => (h.links a b).trans (h'.links a b), fun a c b => (h.colliders a c b).trans (h'.colliders a c b)⟩

theorem Linked.symm {R : V → V → Prop} {a b : V} (h : Linked R a b) : Linked R b a := Or.symm h

theorem NoCycle.irrefl {R : V → V → Prop} (h : NoCycle R) (v : V) : ¬ R v v := fun h' => h v (TransGen.single h')

theorem NoCycle.asymm {R : V → V → Prop} (h : NoCycle R) {a b : V} (h1 : R a b) : ¬ R b a :=
  fun h2 => h a (TransGen.tail (TransGen.single h1) h2)

theorem NoCycle.no_triangle {R : V → V → Prop} (h : NoCycle R) {a b c : V} (h1 : R a b) (h2 : R b c) : ¬ R c a :=
  fun h3 => h a (TransGen.tail (TransGen.tail (TransGen.single h1) h2) h3)

variable {R : V → V → Prop} {x y : V}

/-- There is no other way from `x` to `y`. -/
theorem Covered.only (hR : NoCycle R) (hc : Covered R x y) :
    ¬ ReflTransGen (fun a b => R a b ∧ ¬ (a = x ∧ b = y)) x y := by
  intro h
  rcases ReflTransGen.cases_tail h with h | ⟨w, h1, h2, h3⟩
  · subst h
    exact hR.irrefl _ hc.arrow
  · rcases (hc.parents w).1 h2 with rfl | hw
    · exact h3 ⟨rfl, rfl⟩
    · have : ReflTransGen R x w := ReflTransGen.mono (fun a b h => h.1) _ _ h1
      exact hR x (TransGen.tail' this hw)

theorem Covered.turned_noCycle (hR : NoCycle R) (hc : Covered R x y) : NoCycle (Turned R x y) := by
  have key : ∀ a b, TransGen (Turned R x y) a b → TransGen (fun a b => R a b ∧ ¬ (a = x ∧ b = y)) a b ∨
      ReflTransGen (fun a b => R a b ∧ ¬ (a = x ∧ b = y)) a y ∧ ReflTransGen (fun a b => R a b ∧ ¬ (a = x ∧ b = y)) x b := by
    intro a b h
    induction h with
    | single h =>
      rcases h with h | ⟨rfl, rfl⟩
      · exact Or.inl (TransGen.single h)
      · exact Or.inr ⟨ReflTransGen.refl, ReflTransGen.refl⟩
    | tail _ h ih =>
      rcases h with h | ⟨rfl, rfl⟩
      · rcases ih with ih | ⟨i1, i2⟩
        · exact Or.inl (ih.tail h)
        · exact Or.inr ⟨i1, i2.tail h⟩
      · rcases ih with ih | ⟨i1, i2⟩
        · exact Or.inr ⟨ih.to_reflTransGen, ReflTransGen.refl⟩
        · exact absurd i2 (hc.only hR)
  intro v h
  rcases key v v h with h | ⟨h1, h2⟩
  · exact hR v (TransGen.mono (fun a b h => h.1) _ _ h)
  · exact hc.only hR (h2.trans h1)

theorem Covered.turned_links (hc : Covered R x y) (a b : V) : Linked R a b ↔ Linked (Turned R x y) a b := by
  have h := hc.arrow
  unfold Linked Turned
  constructor
  · rintro (h1 | h1)
    · by_cases h2 : a = x ∧ b = y
      · exact Or.inr (Or.inr ⟨h2.2, h2.1⟩)
      · exact Or.inl (Or.inl ⟨h1, h2⟩)
    · by_cases h2 : b = x ∧ a = y
      · exact Or.inl (Or.inr ⟨h2.2, h2.1⟩)
      · exact Or.inr (Or.inl ⟨h1, h2⟩)
  · rintro ((⟨h1, -⟩ | ⟨rfl, rfl⟩) | (⟨h1, -⟩ | ⟨rfl, rfl⟩))
    · exact Or.inl h1
    · exact Or.inr h
    · exact Or.inr h1
    · exact Or.inl h

theorem Covered.turned_equivalent (hR : NoCycle R) (hc : Covered R x y) : Equivalent R (Turned R x y) := by
  refine ⟨hc.turned_links, fun a c b => ?_⟩
  unfold Collider
  rw [← hc.turned_links a b]
  have hA : ∀ a b, R a c → R b c → a ≠ b → ¬ Linked R a b → Turned R x y a c := by
    intro a b h1 h2 h3 h4
    refine Or.inl ⟨h1, ?_⟩
    rintro ⟨rfl, rfl⟩
    rcases (hc.parents b).1 h2 with h | h
    · exact h3 h.symm
    · exact h4 (Or.inr h)
  have hB : ∀ a b, Turned R x y a c → Turned R x y b c → a ≠ b → ¬ Linked R a b → R a c := by
    intro a b h1 h2 h3 h4
    rcases h1 with h1 | ⟨rfl, rfl⟩
    · exact h1.1
    rcases h2 with h2 | ⟨rfl, -⟩
    · exact absurd (Or.inr ((hc.parents b).2 (Or.inr h2.1))) h4
    · exact absurd rfl h3
  constructor
  · rintro ⟨h1, h2, h3, h4⟩
    exact ⟨hA a b h1 h2 h3 h4, hA b a h2 h1 h3.symm fun h => h4 h.symm, h3, h4⟩
  · rintro ⟨h1, h2, h3, h4⟩
    exact ⟨hB a b h1 h2 h3 h4, hB b a h2 h1 h3.symm fun h => h4 h.symm, h3, h4⟩

/-- The nodes of an acyclic graph can be numbered along the arrows. -/
theorem exists_rank [DecidableEq V] {G : Finset (V × V)} (hG : NoCycle fun a b => (a, b) ∈ G) :
    ∃ rank : V → ℕ, ∀ a b, (a, b) ∈ G → rank a < rank b := by
  classical
  refine ⟨fun v => ((G.image Prod.fst).filter fun a => TransGen (fun a b => (a, b) ∈ G) a v).card, fun a b hab => ?_⟩
  apply Finset.card_lt_card
  rw [Finset.ssubset_iff_of_subset]
  · refine ⟨a, ?_, ?_⟩
    · rw [Finset.mem_filter]
      exact ⟨Finset.mem_image_of_mem Prod.fst hab, TransGen.single hab⟩
    · rw [Finset.mem_filter]
      exact fun h => hG a h.2
  · intro c hc
    rw [Finset.mem_filter] at hc ⊢
    exact ⟨hc.1, hc.2.tail hab⟩

/-- Among the arrows of one graph that go the other way in an equivalent graph, if there are any, one is covered. -/
theorem exists_covered [DecidableEq V] {G H : Finset (V × V)} (hG : NoCycle fun a b => (a, b) ∈ G) (hH : NoCycle fun a b => (a, b) ∈ H)
    (he : Equivalent (fun a b => (a, b) ∈ G) fun a b => (a, b) ∈ H) (hne : (G \ H).Nonempty) :
    ∃ x y, (x, y) ∈ G \ H ∧ Covered (fun a b => (a, b) ∈ G) x y := by
  classical
  set R : V → V → Prop := fun a b => (a, b) ∈ G with hRdef
  obtain ⟨rank, hrank⟩ := exists_rank hG
  have hdiff : ∀ {a b}, (a, b) ∈ G → ((a, b) ∈ H ∨ (b, a) ∈ H) := fun {a b} h => (he.links a b).1 (Or.inl h)
  obtain ⟨⟨x₁, y⟩, h1, hy⟩ := Finset.exists_min_image (G \ H) (fun e => rank e.2) hne
  obtain ⟨⟨x, y'⟩, h2, hx⟩ := Finset.exists_max_image ((G \ H).filter fun e => e.2 = y) (fun e => rank e.1)
    ⟨(x₁, y), Finset.mem_filter.2 ⟨h1, rfl⟩⟩
  obtain ⟨hxy, hyy⟩ := Finset.mem_filter.1 h2
  change y' = y at hyy
  subst hyy
  have hxG : R x y' := (Finset.mem_sdiff.1 hxy).1
  have hyxH : (y', x) ∈ H := (hdiff hxG).resolve_left (Finset.mem_sdiff.1 hxy).2
  have low : ∀ a b, R a b → rank b < rank y' → (a, b) ∈ H := by
    intro a b hab hlt
    by_contra hn
    exact absurd (hy (a, b) (Finset.mem_sdiff.2 ⟨hab, hn⟩)) (not_le.2 hlt)
  have high : ∀ a, R a y' → rank x < rank a → (a, y') ∈ H := by
    intro a hab hlt
    by_contra hn
    exact absurd (hx (a, y') (Finset.mem_filter.2 ⟨Finset.mem_sdiff.2 ⟨hab, hn⟩, rfl⟩)) (not_le.2 hlt)
  refine ⟨x, y', hxy, hxG, fun z => ⟨fun hz => ?_, ?_⟩⟩
  · by_cases hzx : z = x
    · exact Or.inl hzx
    right
    by_cases hl : Linked R x z
    · rcases hl with hl | hl
      · exfalso
        have hxz : (x, z) ∈ H := low x z hl (hrank z y' hz)
        have hzy : (z, y') ∈ H := high z hz (hrank x z hl)
        exact hH.no_triangle hxz hzy hyxH
      · exact hl
    · exfalso
      have := (he.colliders x y' z).1 ⟨hxG, hz, fun h => hzx h.symm, hl⟩
      exact hH.asymm this.1 hyxH
  · rintro (rfl | hz)
    · exact hxG
    · have hzH : (z, x) ∈ H := low z x hz (hrank x y' hxG)
      have hzy : z ≠ y' := by
        rintro rfl
        exact hG.asymm hxG hz
      by_cases hl : Linked R z y'
      · rcases hl with hl | hl
        · exact hl
        · exact absurd hl (hG.no_triangle hz hxG)
      · exfalso
        have := (he.colliders z x y').2 ⟨hzH, hyxH, hzy, fun h => hl ((he.links z y').2 h)⟩
        exact hG.asymm hxG this.2.1

/-- A quantity that does not change when a covered arrow that points the other way in `H` is turned around.  `P` holds of the first graph and of
all graphs in between. -/
theorem equivalent_induction [DecidableEq V] {α : Type*} (P : Finset (V × V) → Prop) (Φ : Finset (V × V) → α) {H : Finset (V × V)}
    (hH : NoCycle fun a b => (a, b) ∈ H)
    (hΦ : ∀ (G G' : Finset (V × V)) (x y : V), P G → NoCycle (fun a b => (a, b) ∈ G) →
      (∀ a b, Linked (fun a b => (a, b) ∈ G) a b ↔ Linked (fun a b => (a, b) ∈ H) a b) → Covered (fun a b => (a, b) ∈ G) x y → (y, x) ∈ H →
      (∀ a b, (a, b) ∈ G' ↔ Turned (fun a b => (a, b) ∈ G) x y a b) → P G' ∧ Φ G = Φ G')
    {G : Finset (V × V)} (hP : P G) (hG : NoCycle fun a b => (a, b) ∈ G)
    (he : Equivalent (fun a b => (a, b) ∈ G) fun a b => (a, b) ∈ H) : Φ G = Φ H := by
  induction hn : (G \ H).card using Nat.strong_induction_on generalizing G with
  | _ n ih =>
    by_cases hne : (G \ H).Nonempty
    · obtain ⟨x, y, hxy, hc⟩ := exists_covered hG hH he hne
      have hxG := (Finset.mem_sdiff.1 hxy).1
      have hyxH : (y, x) ∈ H := ((he.links x y).1 (Or.inl hxG)).resolve_left (Finset.mem_sdiff.1 hxy).2
      let G' : Finset (V × V) := insert (y, x) (G.erase (x, y))
      have hG' : ∀ a b, (a, b) ∈ G' ↔ Turned (fun a b => (a, b) ∈ G) x y a b := by
        intro a b
        simp only [G', Finset.mem_insert, Finset.mem_erase, Prod.mk.injEq, Turned, ne_eq]
        tauto
      have hrel : (fun a b => (a, b) ∈ G') = Turned (fun a b => (a, b) ∈ G) x y := by
        funext a b
        exact propext (hG' a b)
      obtain ⟨hP', hΦ'⟩ := hΦ G G' x y hP hG he.links hc hyxH hG'
      rw [hΦ']
      refine ih (G' \ H).card ?_ hP' ?_ ?_ rfl
      · rw [← hn]
        apply Finset.card_lt_card
        rw [Finset.ssubset_iff_of_subset]
        · refine ⟨(x, y), hxy, ?_⟩
          intro h
          rcases Finset.mem_insert.1 (Finset.mem_sdiff.1 h).1 with h | h
          · simp only [Prod.mk.injEq] at h
            rw [h.1] at hc
            exact hG.irrefl _ hc.arrow
          · exact absurd rfl (Finset.mem_erase.1 h).1
        · intro e he'
          obtain ⟨h1, h2⟩ := Finset.mem_sdiff.1 he'
          rcases Finset.mem_insert.1 h1 with rfl | h1
          · exact absurd hyxH h2
          · exact Finset.mem_sdiff.2 ⟨(Finset.mem_erase.1 h1).2, h2⟩
      · rw [hrel]
        exact hc.turned_noCycle hG
      · rw [hrel]
        exact (hc.turned_equivalent hG).symm.trans he
    · have hsub : ∀ a b, (a, b) ∈ G → (a, b) ∈ H := by
        intro a b hab
        by_contra h
        exact hne ⟨(a, b), Finset.mem_sdiff.2 ⟨hab, h⟩⟩
      have : G = H := by
        ext ⟨a, b⟩
        refine ⟨hsub a b, fun h => ?_⟩
        rcases (he.links a b).2 (Or.inl h) with h' | h'
        · exact h'
        · exact absurd (hsub b a h') (hH.asymm h)
      rw [this]

end

end Verif.Graph
