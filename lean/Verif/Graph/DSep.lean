import Verif.Graph.Basic
import Mathlib.Data.List.Infix
import Mathlib.Data.List.Duplicate

/-!
# d-separation

Specification (`Active`, `DSeparated`): the textbook definition by paths.  The rest of the file shows that what a "Bayes ball" reaches
is d-connected, so that it can be used in proofs.
-/

namespace Verif.Graph

variable {N : Type}

/-- Specification: a list of nodes is an active walk given `Z`: consecutive nodes are linked by an edge; an inner node `b` at which both edges of
the walk arrive is in `Z` or has a descendant in `Z`, and no other inner node is in `Z`. -/
def Active (E : List (N × N)) (Z : N → Prop) (l : List N) : Prop :=
  (∀ a b, [a, b] <:+: l → Link E a b) ∧
  ∀ a b c, [a, b, c] <:+: l →
    ((a, b) ∈ E ∧ (c, b) ∈ E → ∃ z, Z z ∧ Relation.ReflTransGen (EdgeRel E) b z) ∧ (¬ ((a, b) ∈ E ∧ (c, b) ∈ E) → ¬ Z b)

/-- Specification: `v` and `w` are d-separated by `Z`: no path from `v` to `w` (without repeated nodes) is active. -/
def DSeparated (E : List (N × N)) (Z : N → Prop) (v w : N) : Prop :=
  ∀ l : List N, l.Nodup → l.head? = some v → l.getLast? = some w → ¬ Active E Z l

theorem Active.reverse {E : List (N × N)} {Z : N → Prop} {l : List N} (h : Active E Z l) : Active E Z l.reverse := by
  refine ⟨fun a b hab => ?_, fun a b c habc => ?_⟩
  · have : [b, a] <:+: l := by
      rw [← List.reverse_infix]
      simpa using hab
    exact (h.1 b a this).symm
  · have : [c, b, a] <:+: l := by
      rw [← List.reverse_infix]
      simpa using habc
    have := h.2 c b a this
    exact ⟨fun h' => this.1 h'.symm, fun h' => this.2 fun h'' => h' h''.symm⟩

theorem DSeparated.symm {E : List (N × N)} {Z : N → Prop} {v w : N} (h : DSeparated E Z v w) : DSeparated E Z w v := by
  intro l hn hh hl ha
  refine h l.reverse (List.nodup_reverse.2 hn) ?_ ?_ ha.reverse
  · rw [List.head?_reverse, hl]
  · rw [List.getLast?_reverse, hh]

theorem Active.infix {E : List (N × N)} {Z : N → Prop} {l m : List N} (h : Active E Z l) (hm : m <:+: l) : Active E Z m :=
  ⟨fun a b hab => h.1 a b (hab.trans hm), fun a b c habc => h.2 a b c (habc.trans hm)⟩

theorem infix_two_append {a b x : N} {l m : List N} (h : [a, b] <:+: l ++ x :: m) : [a, b] <:+: l ++ [x] ∨ [a, b] <:+: x :: m := by
  induction l with
  | nil => exact Or.inr h
  | cons y l ih =>
    rw [List.cons_append, List.infix_cons_iff] at h
    rcases h with h | h
    · left
      rw [List.cons_append, List.infix_cons_iff]
      left
      cases l with
      | nil =>
        simp only [List.nil_append] at h ⊢
        rw [List.cons_prefix_cons, List.cons_prefix_cons] at h
        simp [h.1, h.2.1]
      | cons y' l =>
        simp only [List.cons_append] at h ⊢
        rw [List.cons_prefix_cons, List.cons_prefix_cons] at h
        simp [h.1, h.2.1]
    · rcases ih h with h | h
      · left
        rw [List.cons_append, List.infix_cons_iff]
        exact Or.inr h
      · exact Or.inr h

theorem infix_three_append {a b c x : N} {l m : List N} (h : [a, b, c] <:+: l ++ x :: m) :
    [a, b, c] <:+: l ++ [x] ∨ [a, b, c] <:+: x :: m ∨ (b = x ∧ (∃ l', l = l' ++ [a]) ∧ ∃ m', m = c :: m') := by
  induction l with
  | nil => exact Or.inr (Or.inl h)
  | cons y l ih =>
    rw [List.cons_append, List.infix_cons_iff] at h
    rcases h with h | h
    · cases l with
      | nil =>
        right; right
        simp only [List.nil_append] at h
        cases m with
        | nil => simp at h
        | cons c' m =>
          rw [List.cons_prefix_cons, List.cons_prefix_cons, List.cons_prefix_cons] at h
          exact ⟨h.2.1, ⟨[], by simp [h.1]⟩, ⟨m, by simp [h.2.2.1]⟩⟩
      | cons y' l =>
        left
        rw [List.cons_append, List.infix_cons_iff]
        left
        cases l with
        | nil =>
          simp only [List.cons_append, List.nil_append] at h ⊢
          rw [List.cons_prefix_cons, List.cons_prefix_cons, List.cons_prefix_cons] at h
          simp [h.1, h.2.1, h.2.2.1]
        | cons y'' l =>
          simp only [List.cons_append] at h ⊢
          rw [List.cons_prefix_cons, List.cons_prefix_cons, List.cons_prefix_cons] at h
          simp [h.1, h.2.1, h.2.2.1]
    · rcases ih h with h | h | ⟨h1, ⟨l', rfl⟩, h3⟩
      · left
        rw [List.cons_append, List.infix_cons_iff]
        exact Or.inr h
      · exact Or.inr (Or.inl h)
      · exact Or.inr (Or.inr ⟨h1, ⟨y :: l', rfl⟩, h3⟩)

theorem Acyclic.not_both {E : List (N × N)} (h : Acyclic E) {a b : N} (h1 : (a, b) ∈ E) (h2 : (b, a) ∈ E) : False :=
  h a ((Relation.TransGen.single (show EdgeRel E a b from h1)).tail (show EdgeRel E b a from h2))

/-- An active walk that starts along an edge follows edges up to its end, or its start has a descendant in `Z`. -/
theorem Active.forward {E : List (N × N)} {Z : N → Prop} {l : List N} {a b : N} (h : Active E Z (a :: b :: l)) (hab : (a, b) ∈ E) :
    Relation.TransGen (EdgeRel E) a ((b :: l).getLast (by simp)) ∨ ∃ z, Z z ∧ Relation.ReflTransGen (EdgeRel E) a z := by
  induction l generalizing a b with
  | nil => exact Or.inl (Relation.TransGen.single hab)
  | cons c l ih =>
    by_cases hc : (c, b) ∈ E
    · obtain ⟨z, hz, hr⟩ := (h.2 a b c ⟨[], l, by simp⟩).1 ⟨hab, hc⟩
      exact Or.inr ⟨z, hz, hr.head hab⟩
    · have hbc : (b, c) ∈ E := (h.1 b c ⟨[a], l, by simp⟩).resolve_right hc
      rcases ih (h.infix ⟨[a], [], by simp⟩) hbc with h' | ⟨z, hz, hr⟩
      · left
        rw [List.getLast_cons (by simp)]
        exact h'.head hab
      · exact Or.inr ⟨z, hz, hr.head hab⟩

/-- An active walk can be shortened to an active path. -/
theorem Active.path {E : List (N × N)} (hE : Acyclic E) {Z : N → Prop} : ∀ (k : ℕ) {l : List N}, l.length ≤ k → Active E Z l →
    ∃ m : List N, m.Nodup ∧ m.head? = l.head? ∧ m.getLast? = l.getLast? ∧ Active E Z m := by
  classical
  intro k
  induction k with
  | zero =>
    intro l hl h
    have : l = [] := by simpa using hl
    subst this
    exact ⟨[], List.nodup_nil, rfl, rfl, h⟩
  | succ k ih =>
    intro l hl h
    by_cases hn : l.Nodup
    · exact ⟨l, hn, rfl, rfl, h⟩
    · have : ∃ b l₁ l₂ l₃, l = l₁ ++ b :: (l₂ ++ b :: l₃) := by
        rw [← List.exists_duplicate_iff_not_nodup] at hn
        obtain ⟨b, hb⟩ := hn
        clear hl h
        induction hb with
        | cons_mem hm =>
          obtain ⟨s, t, rfl⟩ := List.append_of_mem hm
          exact ⟨_, [], s, t, rfl⟩
        | cons_duplicate _ ih =>
          obtain ⟨b, l₁, l₂, l₃, rfl⟩ := ih
          exact ⟨b, _ :: l₁, l₂, l₃, rfl⟩
      obtain ⟨b, l₁, l₂, l₃, rfl⟩ := this
      have hpre : l₁ ++ [b] <:+: l₁ ++ b :: (l₂ ++ b :: l₃) := ⟨[], l₂ ++ b :: l₃, by simp⟩
      have hsuf : b :: l₃ <:+: l₁ ++ b :: (l₂ ++ b :: l₃) := ⟨l₁ ++ b :: l₂, [], by simp⟩
      have hnew : Active E Z (l₁ ++ b :: l₃) := by
        refine ⟨fun x y hxy => ?_, fun x y z hxyz => ?_⟩
        · rcases infix_two_append hxy with h' | h'
          · exact h.1 x y (h'.trans hpre)
          · exact h.1 x y (h'.trans hsuf)
        · rcases infix_three_append hxyz with h' | h' | ⟨rfl, ⟨l₁', rfl⟩, ⟨l₃', rfl⟩⟩
          · exact h.2 x y z (h'.trans hpre)
          · exact h.2 x y z (h'.trans hsuf)
          · obtain ⟨d, hd1, hd2, hd3⟩ : ∃ d, [x, y, d] <:+: (l₁' ++ [x]) ++ y :: (l₂ ++ y :: z :: l₃') ∧
                (∃ t, l₂ ++ [y] = d :: t) ∧ True := by
              cases l₂ with
              | nil => exact ⟨y, ⟨l₁', z :: l₃', by simp⟩, ⟨[], rfl⟩, trivial⟩
              | cons d t => exact ⟨d, ⟨l₁', t ++ y :: z :: l₃', by simp⟩, ⟨t ++ [y], rfl⟩, trivial⟩
            obtain ⟨e, he⟩ : ∃ e, [e, y, z] <:+: (l₁' ++ [x]) ++ y :: (l₂ ++ y :: z :: l₃') := by
              rcases List.eq_nil_or_concat l₂ with rfl | ⟨t, e, rfl⟩
              · exact ⟨y, ⟨l₁' ++ [x], l₃', by simp⟩⟩
              · exact ⟨e, ⟨l₁' ++ [x] ++ y :: t, l₃', by simp⟩⟩
            constructor
            · rintro ⟨h1, h2⟩
              by_cases hdy : (d, y) ∈ E
              · exact (h.2 x y d hd1).1 ⟨h1, hdy⟩
              · have hyd : (y, d) ∈ E := by
                  refine (h.1 y d ?_).resolve_right hdy
                  exact List.IsInfix.trans ⟨[x], [], by simp⟩ hd1
                obtain ⟨t, ht⟩ := hd2
                have hact : Active E Z (y :: d :: t) := by
                  rw [← ht]
                  exact h.infix ⟨l₁' ++ [x], z :: l₃', by simp⟩
                rcases hact.forward hyd with h' | h'
                · have hl' : (d :: t).getLast (by simp) = y := by
                    have : ∀ (q : List N) (hq : q ≠ []), q = l₂ ++ [y] → q.getLast hq = y := by
                      rintro q hq rfl
                      simp
                    exact this _ _ ht.symm
                  rw [hl'] at h'
                  exact absurd h' (hE y)
                · exact h'
            · intro hc
              by_cases hxy : (x, y) ∈ E
              · exact (h.2 e y z he).2 fun h' => hc ⟨hxy, h'.2⟩
              · exact (h.2 x y d hd1).2 fun h' => hxy h'.1
      obtain ⟨m, h1, h2, h3, h4⟩ := ih (l := l₁ ++ b :: l₃) (by
        simp only [List.length_append, List.length_cons] at hl ⊢
        omega) hnew
      refine ⟨m, h1, h2.trans ?_, h3.trans ?_, h4⟩
      · cases l₁ <;> simp
      · rw [show l₁ ++ b :: (l₂ ++ b :: l₃) = (l₁ ++ b :: l₂) ++ b :: l₃ by simp, List.getLast?_append, List.getLast?_append,
          List.getLast?_eq_some_getLast (List.cons_ne_nil b l₃)]
        rfl

/-- What a ball thrown from `v` reaches, coming from a child (`true`) or from a parent (`false`). -/
inductive Ball (E : List (N × N)) (Z : N → Prop) (v : N) : N → Bool → Prop
  | start : Ball E Z v v true
  | up_up {u p} : Ball E Z v u true → ¬ Z u → (p, u) ∈ E → Ball E Z v p true
  | up_down {u c} : Ball E Z v u true → ¬ Z u → (u, c) ∈ E → Ball E Z v c false
  | down_down {u c} : Ball E Z v u false → ¬ Z u → (u, c) ∈ E → Ball E Z v c false
  | down_up {u p} : Ball E Z v u false → (∃ z, Z z ∧ Relation.ReflTransGen (EdgeRel E) u z) → (p, u) ∈ E → Ball E Z v p true

theorem Active.extend {E : List (N × N)} {Z : N → Prop} {c u : N} {l : List N} (h : Active E Z (u :: l)) (hc : Link E c u)
    (hp : ∀ p, l.head? = some p → ((c, u) ∈ E ∧ (p, u) ∈ E → ∃ z, Z z ∧ Relation.ReflTransGen (EdgeRel E) u z) ∧
      (¬ ((c, u) ∈ E ∧ (p, u) ∈ E) → ¬ Z u)) : Active E Z (c :: u :: l) := by
  refine ⟨fun x y hxy => ?_, fun x y z hxyz => ?_⟩
  · rw [List.infix_cons_iff] at hxy
    rcases hxy with hxy | hxy
    · rw [List.cons_prefix_cons, List.cons_prefix_cons] at hxy
      rw [hxy.1, hxy.2.1]
      exact hc
    · exact h.1 x y hxy
  · rw [List.infix_cons_iff] at hxyz
    rcases hxyz with hxyz | hxyz
    · cases l with
      | nil =>
        rw [List.cons_prefix_cons, List.cons_prefix_cons] at hxyz
        simp at hxyz
      | cons p l =>
        rw [List.cons_prefix_cons, List.cons_prefix_cons, List.cons_prefix_cons] at hxyz
        rw [hxyz.1, hxyz.2.1, hxyz.2.2.1]
        exact hp p rfl
    · exact h.2 x y z hxyz

/-- What the ball reaches is at the end of an active walk. -/
theorem Ball.walk {E : List (N × N)} (hE : Acyclic E) {Z : N → Prop} {v u : N} {d : Bool} (h : Ball E Z v u d) :
    ∃ l : List N, Active E Z (u :: l) ∧ (u :: l).getLast? = some v ∧
      (d = true → ∀ p, l.head? = some p → (u, p) ∈ E) ∧ (d = false → ∃ p, l.head? = some p ∧ (p, u) ∈ E) := by
  induction h with
  | start =>
    refine ⟨[], ⟨fun a b h => ?_, fun a b c h => ?_⟩, rfl, fun _ p hp => by simp at hp, fun h => by simp at h⟩
    · have := h.length_le
      simp at this
    · have := h.length_le
      simp at this
  | @up_up u p _ hz hpu ih =>
    obtain ⟨l, h1, h2, h3, -⟩ := ih
    refine ⟨u :: l, h1.extend (Or.inl hpu) fun q hq => ⟨fun h' => ?_, fun _ => hz⟩, ?_, fun _ q hq => ?_, fun h => by simp at h⟩
    · exact (hE.not_both (h3 rfl q hq) h'.2).elim
    · simpa using h2
    · cases hq
      exact hpu
  | @up_down u c _ hz huc ih =>
    obtain ⟨l, h1, h2, h3, -⟩ := ih
    refine ⟨u :: l, h1.extend (Or.inr huc) fun q hq => ⟨fun h' => ?_, fun _ => hz⟩, ?_, fun h => by simp at h, fun _ => ⟨u, rfl, huc⟩⟩
    · exact (hE.not_both huc h'.1).elim
    · simpa using h2
  | @down_down u c _ hz huc ih =>
    obtain ⟨l, h1, h2, -, h4⟩ := ih
    refine ⟨u :: l, h1.extend (Or.inr huc) fun q hq => ⟨fun h' => ?_, fun _ => hz⟩, ?_, fun h => by simp at h, fun _ => ⟨u, rfl, huc⟩⟩
    · exact (hE.not_both huc h'.1).elim
    · simpa using h2
  | @down_up u p _ hz hpu ih =>
    obtain ⟨l, h1, h2, -, h4⟩ := ih
    obtain ⟨p', hp', hpu'⟩ := h4 rfl
    refine ⟨u :: l, h1.extend (Or.inl hpu) fun q hq => ⟨fun _ => hz, fun h' => ?_⟩, ?_, fun _ q hq => ?_, fun h => by simp at h⟩
    · rw [hp'] at hq
      cases hq
      exact absurd ⟨hpu, hpu'⟩ h'
    · simpa using h2
    · cases hq
      exact hpu

/-- A node that is d-separated from `v` is not reached. -/
theorem DSeparated.not_ball {E : List (N × N)} (hE : Acyclic E) {Z : N → Prop} {v w : N} (h : DSeparated E Z v w) (d : Bool) :
    ¬ Ball E Z v w d := by
  intro hb
  obtain ⟨l, h1, h2, -⟩ := hb.walk hE
  obtain ⟨m, h3, h4, h5, h6⟩ := h1.path hE _ (le_refl _)
  exact h.symm m h3 (h4.trans rfl) (h5.trans h2) h6

end Verif.Graph
