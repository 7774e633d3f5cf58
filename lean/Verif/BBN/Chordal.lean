import Verif.BBN.MinFill
import Mathlib.Tactic.IntervalCases

/-!
# Chordal graphs have an order of elimination that adds no edge (Dirac)

With it: triangulation leaves a graph as it is exactly if every cycle has a chord.
-/

namespace Verif.BBN

variable {V : Type} [LinearOrder V]

/-- Every cycle of at least four distinct nodes in `s` has a chord: two nodes of the cycle that are joined but do not follow one another
on it. -/
def Chordal (s : Finset V) (adj : V → V → Prop) : Prop :=
  ∀ (n : ℕ) (c : ℕ → V), 4 ≤ n → (∀ i < n, c i ∈ s) → (∀ i < n, ∀ j < n, c i = c j → i = j) →
    (∀ i, i + 1 < n → adj (c i) (c (i + 1))) → adj (c (n - 1)) (c 0) →
    ∃ i j, i + 2 ≤ j ∧ j < n ∧ ¬ (i = 0 ∧ j = n - 1) ∧ adj (c i) (c j)

theorem Chordal.mono {s t : Finset V} {adj : V → V → Prop} (h : Chordal s adj) (hts : t ⊆ s) : Chordal t adj :=
  fun n c h4 hc hinj hadj hlast => h n c h4 (fun i hi => hts (hc i hi)) hinj hadj hlast

/-- A walk of `k` steps from `a` to `b` with inner nodes in `C`. -/
def WalkVia (adj : V → V → Prop) (C : V → Prop) (a b : V) (k : ℕ) (p : ℕ → V) : Prop :=
  p 0 = a ∧ p k = b ∧ (∀ i, 0 < i → i < k → C (p i)) ∧ ∀ i < k, adj (p i) (p (i + 1))

/-- Leaving out the steps from `i` to `j`, where `p i` is joined to `p j`. -/
theorem WalkVia.shortcut {adj : V → V → Prop} {C : V → Prop} {a b : V} {k : ℕ} {p : ℕ → V} (h : WalkVia adj C a b k p) {i j : ℕ}
    (hij : i < j) (hj : j ≤ k) (hadj : adj (p i) (p j)) : ∃ q, WalkVia adj C a b (k - (j - i) + 1) q := by
  obtain ⟨h0, hk, hC, hs⟩ := h
  refine ⟨fun m => if m ≤ i then p m else p (m + (j - i) - 1), by simp [h0], ?_, ?_, ?_⟩
  · have : ¬ k - (j - i) + 1 ≤ i := by omega
    simp only [this, if_false]
    rw [← hk]
    congr 1
    omega
  · intro m hm1 hm2
    by_cases hmi : m ≤ i
    · simp only [hmi, if_true]
      exact hC m hm1 (by omega)
    · simp only [hmi, if_false]
      exact hC _ (by omega) (by omega)
  · intro m hm
    by_cases h1 : m + 1 ≤ i
    · have h2 : m ≤ i := by omega
      simp only [h1, h2, if_true]
      exact hs m (by omega)
    · by_cases h2 : m ≤ i
      · have h3 : m = i := by omega
        subst h3
        simp only [le_refl, if_true, h1, if_false]
        have : m + 1 + (j - m) - 1 = j := by omega
        rw [this]
        exact hadj
      · simp only [h1, h2, if_false]
        have : m + 1 + (j - i) - 1 = m + (j - i) - 1 + 1 := by omega
        rw [this]
        exact hs _ (by omega)

/-- Leaving out the steps from `i` to `j`, where `p i` is `p j`. -/
theorem WalkVia.skip {adj : V → V → Prop} {C : V → Prop} {a b : V} {k : ℕ} {p : ℕ → V} (h : WalkVia adj C a b k p) {i j : ℕ}
    (hij : i < j) (hj : j ≤ k) (heq : p i = p j) : ∃ q, WalkVia adj C a b (k - (j - i)) q := by
  obtain ⟨h0, hk, hC, hs⟩ := h
  refine ⟨fun m => if m ≤ i then p m else p (m + (j - i)), by simp [h0], ?_, ?_, ?_⟩
  · by_cases h1 : k - (j - i) ≤ i
    · have h2 : k - (j - i) = i := by omega
      simp only [h1, if_true]
      rw [h2, heq, ← hk]
      congr 1
      omega
    · simp only [h1, if_false]
      rw [← hk]
      congr 1
      omega
  · intro m hm1 hm2
    by_cases hmi : m ≤ i
    · simp only [hmi, if_true]
      exact hC m hm1 (by omega)
    · simp only [hmi, if_false]
      exact hC _ (by omega) (by omega)
  · intro m hm
    by_cases h1 : m + 1 ≤ i
    · have h2 : m ≤ i := by omega
      simp only [h1, h2, if_true]
      exact hs m (by omega)
    · by_cases h2 : m ≤ i
      · have h3 : m = i := by omega
        subst h3
        simp only [le_refl, if_true, h1, if_false]
        rw [heq]
        have : m + 1 + (j - m) = j + 1 := by omega
        rw [this]
        exact hs j (by omega)
      · simp only [h1, h2, if_false]
        have : m + 1 + (j - i) = m + (j - i) + 1 := by omega
        rw [this]
        exact hs _ (by omega)

/-- Two neighbours of `x` that are joined by a walk outside of `x` and its neighbours are joined, if there are no cycles without
chords. -/
theorem Chordal.neighbours_joined {s : Finset V} {adj : V → V → Prop} (hsym : ∀ a b, adj a b → adj b a) (hirr : ∀ a, ¬ adj a a)
    (hch : Chordal s adj) {C : V → Prop} {x a b : V} (hx : x ∈ s) (ha : a ∈ s) (hb : b ∈ s) (hC : ∀ c, C c → c ∈ s ∧ c ≠ x ∧ ¬ adj x c)
    (hxa : adj x a) (hxb : adj x b) (hab : a ≠ b) {k : ℕ} {p : ℕ → V} (hp : WalkVia adj C a b k p) : adj a b := by
  classical
  by_contra hn
  have hex : ∃ k, ∃ p, WalkVia adj C a b k p := ⟨k, p, hp⟩
  obtain ⟨p, hp⟩ := Nat.find_spec hex
  have hmin : ∀ m, m < Nat.find hex → ¬ ∃ q, WalkVia adj C a b m q := fun m hm => Nat.find_min hex hm
  generalize Nat.find hex = k at hp hmin
  have hp' := hp
  obtain ⟨h0, hk, hCp, hs⟩ := hp'
  have hk2 : 2 ≤ k := by
    rcases k with _ | _ | k
    · exact absurd (h0.symm.trans hk) hab
    · have := hs 0 (by omega)
      rw [h0] at this
      rw [zero_add] at this hk
      rw [hk] at this
      exact absurd this hn
    · omega
  have hne : ∀ i ≤ k, p i ≠ x := by
    intro i hi h
    rcases Nat.eq_zero_or_pos i with rfl | hi0
    · rw [h0] at h
      exact hirr x (by rw [h] at hxa; exact hxa)
    · rcases Nat.lt_or_eq_of_le hi with hi | rfl
      · exact (hC _ (hCp i hi0 hi)).2.1 h
      · rw [hk] at h
        exact hirr x (by rw [h] at hxb; exact hxb)
  obtain ⟨i, j, hij, hj, hnot, hadj⟩ := hch (k + 2) (fun i => if i = 0 then x else p (i - 1)) (by omega) (by
    intro i hi
    by_cases h : i = 0
    · simp [h, hx]
    · simp only [h, if_false]
      rcases Nat.eq_zero_or_pos (i - 1) with h1 | h1
      · rw [h1, h0]; exact ha
      · rcases Nat.lt_or_ge (i - 1) k with h2 | h2
        · exact (hC _ (hCp _ h1 h2)).1
        · rw [show i - 1 = k by omega, hk]; exact hb) (by
    intro i hi j hj h
    by_cases h1 : i = 0 <;> by_cases h2 : j = 0
    · rw [h1, h2]
    · simp only [h1, h2, if_true, if_false] at h
      exact absurd h.symm (hne _ (by omega))
    · simp only [h1, h2, if_true, if_false] at h
      exact absurd h (hne _ (by omega))
    · simp only [h1, h2, if_false] at h
      by_contra hne'
      rcases Nat.lt_or_gt_of_ne (show i - 1 ≠ j - 1 by omega) with h3 | h3
      · exact hmin _ (by omega) (hp.skip h3 (by omega) h)
      · exact hmin _ (by omega) (hp.skip h3 (by omega) h.symm)) (by
    intro i hi
    by_cases h : i = 0
    · simp [h, h0, hxa]
    · simp only [h, if_false, show i + 1 ≠ 0 by omega]
      have := hs (i - 1) (by omega)
      rwa [show i - 1 + 1 = i + 1 - 1 by omega] at this) (by
    have : k + 2 - 1 ≠ 0 := by omega
    simp only [this, if_false, if_true]
    rw [show k + 2 - 1 - 1 = k by omega, hk]
    exact hsym _ _ hxb)
  by_cases hi0 : i = 0
  · subst hi0
    have hj0 : j ≠ 0 := by omega
    simp only [if_true, hj0, if_false] at hadj
    exact (hC _ (hCp (j - 1) (by omega) (by omega))).2.2 hadj
  · have hj0 : j ≠ 0 := by omega
    simp only [hi0, hj0, if_false] at hadj
    exact hmin _ (by omega) (hp.shortcut (i := i - 1) (j := j - 1) (by omega) (by omega) hadj)

/-- A node of `s` all of whose neighbours in `s` are joined to one another. -/
def Simplicial (s : Finset V) (adj : V → V → Prop) (v : V) : Prop :=
  v ∈ s ∧ ∀ a ∈ s, ∀ b ∈ s, adj v a → adj v b → a ≠ b → adj a b

/-- In a graph without chordless cycles, if `x` is not joined to all other nodes, one of those it is not joined to is simplicial. -/
theorem Chordal.exists_simplicial {adj : V → V → Prop} (hsym : ∀ a b, adj a b → adj b a) (hirr : ∀ a, ¬ adj a a) :
    ∀ (n : ℕ) {s : Finset V}, s.card = n → Chordal s adj → ∀ x ∈ s, (∃ y ∈ s, y ≠ x ∧ ¬ adj x y) →
      ∃ z, Simplicial s adj z ∧ z ≠ x ∧ ¬ adj x z := by
  classical
  intro n
  induction n using Nat.strong_induction_on with
  | _ n ih =>
    rintro s hcard hch x hx ⟨y, hy, hyx, hxy⟩
    -- the component of y among the nodes not joined to x
    let T : V → Prop := fun c => c ∈ s ∧ c ≠ x ∧ ¬ adj x c
    let C : V → Prop := fun c => Relation.ReflTransGen (fun a b => adj a b ∧ T b) y c
    have hCT : ∀ c, C c → T c := by
      intro c hc
      cases hc with
      | refl => exact ⟨hy, hyx, hxy⟩
      | tail _ h => exact h.2
    have hCadj : ∀ c d, C c → adj c d → T d → C d := fun c d hc hcd hd => hc.tail ⟨hcd, hd⟩
    -- the other nodes joined to the component are joined to x
    let N : V → Prop := fun a => a ∈ s ∧ ¬ C a ∧ ∃ c, C c ∧ adj a c
    have hNx : ∀ a, N a → adj x a := by
      rintro a ⟨has, hnC, c, hc, hac⟩
      by_contra hn
      by_cases hax : a = x
      · rw [hax] at hac
        exact (hCT c hc).2.2 hac
      · exact hnC (hCadj c a hc (hsym _ _ hac) ⟨has, hax, hn⟩)
    -- they are joined to one another
    have hreach : ∀ a c, C c → adj a c → ∀ d, C d → ∃ k p, WalkVia adj C a d k p := by
      intro a c hc hac d hd
      -- walks inside the component, between any two of its nodes
      have hcomp : ∀ c d, C c → C d → Relation.ReflTransGen (fun a b => adj a b ∧ C a ∧ C b) c d := by
        have hto : ∀ d, C d → Relation.ReflTransGen (fun a b => adj a b ∧ C a ∧ C b) y d := by
          intro d hd
          induction hd with
          | refl => exact .refl
          | @tail b e hb hbe ih =>
            exact ih.tail ⟨hbe.1, hb, hb.tail hbe⟩
        intro c d hc hd
        refine Relation.ReflTransGen.trans ?_ (hto d hd)
        have : Std.Symm (fun a b => adj a b ∧ C a ∧ C b) := ⟨fun a b h => ⟨hsym _ _ h.1, h.2.2, h.2.1⟩⟩
        exact Relation.ReflTransGen.symmetric.symm _ _ (hto c hc)
      have := hcomp c d hc hd
      clear hd
      induction this with
      | refl => exact ⟨1, fun i => if i = 0 then a else c, by simp, by simp, by intro i h1 h2; omega, by
          intro i hi
          have : i = 0 := by omega
          subst this
          simpa using hac⟩
      | @tail b e _ hbe ih =>
        obtain ⟨k, p, h0, hk, hC', hs⟩ := ih
        refine ⟨k + 1, fun i => if i ≤ k then p i else e, by simp [h0], by simp, ?_, ?_⟩
        · intro i h1 h2
          have h3 : i ≤ k := by omega
          simp only [h3, if_true]
          rcases Nat.lt_or_eq_of_le h3 with h4 | rfl
          · exact hC' i h1 h4
          · rw [hk]; exact hbe.2.1
        · intro i hi
          rcases Nat.lt_or_eq_of_le (show i ≤ k by omega) with h4 | rfl
          · have h5 : i + 1 ≤ k := by omega
            simp only [h4.le, h5, if_true]
            exact hs i h4
          · have h5 : ¬ i + 1 ≤ i := by omega
            simp only [le_refl, h5, if_true, if_false]
            rw [hk]
            exact hbe.1
    have hNclique : ∀ a b, N a → N b → a ≠ b → adj a b := by
      intro a b hNa hNb hab
      have hxa := hNx a hNa
      have hxb := hNx b hNb
      obtain ⟨has, -, c, hc, hac⟩ := hNa
      obtain ⟨hbs, -, d, hd, hbd⟩ := hNb
      obtain ⟨k, p, h0, hk, hC', hs⟩ := hreach a c hc hac d hd
      refine hch.neighbours_joined hsym hirr hx has hbs hCT hxa hxb hab
        (k := k + 1) (p := fun i => if i ≤ k then p i else b) ⟨by simp [h0], by simp, ?_, ?_⟩
      · intro i h1 h2
        have h3 : i ≤ k := by omega
        simp only [h3, if_true]
        rcases Nat.lt_or_eq_of_le h3 with h4 | rfl
        · exact hC' i h1 h4
        · rw [hk]; exact hd
      · intro i hi
        rcases Nat.lt_or_eq_of_le (show i ≤ k by omega) with h4 | rfl
        · have h5 : i + 1 ≤ k := by omega
          simp only [h4.le, h5, if_true]
          exact hs i h4
        · have h5 : ¬ i + 1 ≤ i := by omega
          simp only [le_refl, h5, if_true, if_false]
          rw [hk]
          exact hsym _ _ hbd
    -- the component and its boundary
    let H : Finset V := s.filter fun a => C a ∨ N a
    have hHs : H ⊆ s := Finset.filter_subset _ _
    have hH : ∀ a, a ∈ H ↔ C a ∨ N a := by
      intro a
      simp only [H, Finset.mem_filter]
      constructor
      · exact fun h => h.2
      · rintro (h | h)
        · exact ⟨(hCT a h).1, Or.inl h⟩
        · exact ⟨h.1, Or.inr h⟩
    have hxH : x ∉ H := by
      rw [hH]
      rintro (h | h)
      · exact (hCT x h).2.1 rfl
      · exact hirr x (hNx x h)
    have hlt : H.card < n := by
      rw [← hcard]
      exact Finset.card_lt_card ⟨hHs, fun h => hxH (h hx)⟩
    have hnb : ∀ c d, C c → adj c d → d ∈ s → d ∈ H := by
      intro c d hc hcd hds
      rw [hH]
      by_cases hd : C d
      · exact Or.inl hd
      · exact Or.inr ⟨hds, hd, c, hc, hsym _ _ hcd⟩
    -- a simplicial node of the component
    suffices hz : ∃ z, Simplicial H adj z ∧ C z by
      obtain ⟨z, ⟨hz1, hz2⟩, hzC⟩ := hz
      have hT := hCT z hzC
      exact ⟨z, ⟨hT.1, fun a ha b hb hza hzb hab => hz2 a (hnb z a hzC hza ha) b (hnb z b hzC hzb hb) hza hzb hab⟩, hT.2.1, hT.2.2⟩
    have hyH : y ∈ H := (hH y).2 (Or.inl .refl)
    by_cases hcomplete : ∀ a ∈ H, ∀ b ∈ H, a ≠ b → adj a b
    · exact ⟨y, ⟨hyH, fun a ha b hb _ _ hab => hcomplete a ha b hb hab⟩, .refl⟩
    · push Not at hcomplete
      obtain ⟨a, ha, b, hb, hab, hnadj⟩ := hcomplete
      by_cases hu : ∀ u, N u → ∀ w ∈ H, w ≠ u → adj u w
      · obtain ⟨z, hz, hza, hzn⟩ := ih H.card hlt rfl (hch.mono hHs) a ha ⟨b, hb, hab.symm, hnadj⟩
        refine ⟨z, hz, ?_⟩
        rcases (hH z).1 hz.1 with h | h
        · exact h
        · exact absurd (hsym _ _ (hu z h a ha hza.symm)) hzn
      · push Not at hu
        obtain ⟨u, hu, w, hw, hwu, hnuw⟩ := hu
        obtain ⟨z, hz, hzu, hzn⟩ := ih H.card hlt rfl (hch.mono hHs) u ((hH u).2 (Or.inr hu)) ⟨w, hw, hwu, hnuw⟩
        refine ⟨z, hz, ?_⟩
        rcases (hH z).1 hz.1 with h | h
        · exact h
        · exact absurd (hNclique u z hu h hzu.symm) hzn

/-- A graph without chordless cycles has an order of elimination that adds no edge. -/
theorem Chordal.fillFree {adj : V → V → Prop} (hsym : ∀ a b, adj a b → adj b a) (hirr : ∀ a, ¬ adj a a) (s : Finset V)
    (hch : Chordal s adj) : ∃ l : List V, l.Nodup ∧ (∀ v, v ∈ l ↔ v ∈ s) ∧
      ∀ l₁ v l₂, l = l₁ ++ v :: l₂ → ∀ a ∈ l₂, ∀ b ∈ l₂, a ≠ b → adj v a → adj v b → adj a b := by
  induction hn : s.card generalizing s with
  | zero =>
    rw [Finset.card_eq_zero] at hn
    subst hn
    exact ⟨[], by simp, by simp, by simp⟩
  | succ n ih =>
    have hv : ∃ v, Simplicial s adj v := by
      by_cases h : ∃ x ∈ s, ∃ y ∈ s, y ≠ x ∧ ¬ adj x y
      · obtain ⟨x, hx, hy⟩ := h
        obtain ⟨z, hz, -⟩ := hch.exists_simplicial hsym hirr _ rfl x hx hy
        exact ⟨z, hz⟩
      · push Not at h
        obtain ⟨v, hv⟩ := Finset.card_pos.1 (by omega : 0 < s.card)
        exact ⟨v, hv, fun a ha b hb _ _ hab => h a ha b hb hab.symm⟩
    obtain ⟨v, hv, hsimp⟩ := hv
    obtain ⟨l, h1, h2, h3⟩ := ih (s.erase v) (hch.mono (Finset.erase_subset _ _)) (by rw [Finset.card_erase_of_mem hv]; omega)
    refine ⟨v :: l, List.nodup_cons.2 ⟨by rw [h2]; simp, h1⟩, ?_, ?_⟩
    · intro w
      rw [List.mem_cons, h2, Finset.mem_erase]
      constructor
      · rintro (rfl | h)
        · exact hv
        · exact h.2
      · intro h
        by_cases hw : w = v
        · exact Or.inl hw
        · exact Or.inr ⟨hw, h⟩
    · intro l₁ x l₂ heq a ha b hb
      cases l₁ with
      | nil =>
        rw [List.nil_append] at heq
        injection heq with h4 h5
        subst h4 h5
        exact fun hab hva hvb => hsimp a (Finset.mem_of_mem_erase ((h2 a).1 ha)) b (Finset.mem_of_mem_erase ((h2 b).1 hb)) hva hvb hab
      | cons y l₁ =>
        injection heq with h4 h5
        exact h3 l₁ x l₂ h5 a ha b hb

/-- **C113**: triangulation adds an edge exactly if some cycle has no chord. -/
theorem triangulate_chordal {g : UG V} (hg : g.WF) :
    (∀ u ∈ g.nodes, (triangulate priorityFunc g).gm.nbr u = g.nbr u) ↔ Chordal g.nodes.toFinset fun a b => b ∈ g.nbr a := by
  constructor
  · intro h n c h4 hc hinj hadj hlast
    -- the cycle, continued for ever
    simp only [List.mem_toFinset] at hc
    obtain ⟨-, -, -, -, -, -, h1, -⟩ := triangulate_correct priorityFunc hg
    have hmod : ∀ i, i % n < n := fun i => Nat.mod_lt _ (by omega)
    obtain ⟨i, hi⟩ := h1 n (fun i => c (i % n)) h4 (by intro i; simp) (by
      intro i hi j hj hij
      have := hinj (i % n) (hmod i) (j % n) (hmod j) hij
      rwa [Nat.mod_eq_of_lt hi, Nat.mod_eq_of_lt hj] at this) (fun i => hc _ (hmod i)) (by
      intro i
      rw [h _ (hc _ (hmod i))]
      have := hmod i
      rcases Nat.lt_or_ge (i % n + 1) n with h2 | h2
      · rw [show (i + 1) % n = i % n + 1 by rw [Nat.add_mod, Nat.mod_eq_of_lt (by omega : 1 < n), Nat.mod_eq_of_lt h2]]
        exact hadj _ h2
      · have h3 : i % n = n - 1 := by omega
        have h4 : (i + 1) % n = 0 := by
          rw [Nat.add_mod, Nat.mod_eq_of_lt (by omega : 1 < n), h3, show n - 1 + 1 = n by omega, Nat.mod_self]
        rw [h3, h4]
        exact hlast)
    have hm := hmod i
    rw [h _ (hc _ hm)] at hi
    have hmod2 : (i + 2) % n = (i % n + 2) % n := by rw [Nat.add_mod, Nat.mod_eq_of_lt (by omega : 2 < n)]
    rw [hmod2] at hi
    rcases Nat.lt_or_ge (i % n + 2) n with h2 | h2
    · rw [Nat.mod_eq_of_lt h2] at hi
      exact ⟨i % n, i % n + 2, le_rfl, h2, by omega, hi⟩
    · have h3 : (i % n + 2) % n = i % n + 2 - n := by
        rw [Nat.mod_eq_sub_mod h2, Nat.mod_eq_of_lt (by omega)]
      rw [h3] at hi
      refine ⟨i % n + 2 - n, i % n, by omega, hm, by omega, ?_⟩
      exact hg.symm _ (hc _ hm) _ (hc _ (by omega)) hi
  · intro hch u _
    have hsub : ∀ a b, b ∈ g.nbr a ∧ a ∈ g.nodes → a ∈ g.nbr b ∧ b ∈ g.nodes :=
      fun a b h => ⟨hg.symm a h.2 b (hg.sub a h.2 b h.1) h.1, hg.sub a h.2 b h.1⟩
    obtain ⟨l, hnd, hl, hfree⟩ := Chordal.fillFree (adj := fun a b => b ∈ g.nbr a ∧ a ∈ g.nodes) hsub
      (fun a h => hg.irrefl a h.2 h.1) g.nodes.toFinset (by
        intro n c h4 hc hinj hadj hlast
        obtain ⟨i, j, h1, h2, h3, h5⟩ := hch n c h4 hc hinj (fun i hi => (hadj i hi).1) hlast.1
        exact ⟨i, j, h1, h2, h3, h5, List.mem_toFinset.1 (hc i (by omega))⟩)
    simp only [List.mem_toFinset] at hl
    refine triangulate_fill_free hg (l := l) ⟨(List.perm_ext_iff_of_nodup hnd hg.nodup).2 hl, ?_⟩ u
    intro l₁ v l₂ heq a ha b hb hab hva hvb
    have hv : v ∈ g.nodes := (hl v).1 (by rw [heq]; simp)
    exact (hfree l₁ v l₂ heq a ha b hb hab ⟨hva, hv⟩ ⟨hvb, hv⟩).1

section
variable {S K : Type}

/-- **C113**: with no undirected cycle, no table of the join tree has more entries than the largest conditional probability table. -/
theorem polytree_tables {nodes : List (Node V S K)} (hw : NodesWF nodes) (hs : (skeleton nodes).IsAcyclic) {dom : V → List S}
    (hdom : ∀ v ∈ nodes.map Node.var, dom v ≠ []) {nd : Nondet V} {L : ℕ}
    (hL : ∀ n ∈ nodes, (n.args.map fun v => (dom v).length).prod ≤ L) :
    ∀ jt, buildJoinTree nd nodes = .ok jt → ∀ c ∈ jt.cliques, ∏ v ∈ c, (dom v).length ≤ L := by
  intro jt hjt c hc
  obtain ⟨n, hn, hsub⟩ := polytree_cliques hw hs hjt c hc
  refine le_trans ?_ (hL n hn)
  rw [← List.prod_toFinset _ (hw.args_nodup n hn)]
  refine Finset.prod_le_prod_of_subset_of_one_le' (fun v hv => List.mem_toFinset.2 (hsub v hv)) fun v hv _ => ?_
  exact List.length_pos_of_ne_nil (hdom v (hw.args_sub n hn v (List.mem_toFinset.1 hv)))

end

/-! ### Examples -/

/-- `0 → 2 ← 1`, `2 → 3`. -/
def exPoly : List (Node ℕ Bool ℚ) :=
  [⟨⟨[0], fun _ => 1 / 2⟩, 0⟩, ⟨⟨[1], fun _ => 1 / 2⟩, 1⟩, ⟨⟨[2, 0, 1], fun _ => 1 / 2⟩, 2⟩, ⟨⟨[3, 2], fun _ => 1 / 2⟩, 3⟩]

theorem exPoly_wf : NodesWF exPoly := ⟨by decide, by decide, by decide, by decide⟩

/-- What cannot be left by an edge cannot be left. -/
theorem not_reachable {G : SimpleGraph V} {T : V → Prop} (hT : ∀ a b, G.Adj a b → T a → T b) {x y : V} (hx : T x) (hy : ¬ T y) :
    ¬ G.Reachable x y := by
  rintro ⟨p⟩
  apply hy
  induction p with
  | nil => exact hx
  | cons h _ ih => exact ih (hT _ _ h hx) hy

theorem exPoly_acyclic : (skeleton exPoly).IsAcyclic := by
  have h : skeleton exPoly = ((⊥ ⊔ SimpleGraph.edge 0 2) ⊔ SimpleGraph.edge 1 2) ⊔ SimpleGraph.edge 2 3 := by
    ext a b
    simp only [skeleton, SimpleGraph.fromRel_adj, exPoly, List.mem_cons, List.not_mem_nil, or_false, exists_eq_or_imp,
      exists_eq_left, Node.parents, List.mem_filter, SimpleGraph.sup_adj, SimpleGraph.edge_adj, SimpleGraph.bot_adj, false_or,
      decide_eq_true_eq]
    omega
  rw [h, SimpleGraph.isAcyclic_add_edge_iff_of_not_reachable, SimpleGraph.isAcyclic_add_edge_iff_of_not_reachable,
    SimpleGraph.isAcyclic_add_edge_iff_of_not_reachable]
  · exact SimpleGraph.isAcyclic_bot
  · exact not_reachable (T := fun a => a = 0) (by simp) rfl (by decide)
  · exact not_reachable (T := fun a => a = 1) (by
      simp only [SimpleGraph.sup_adj, SimpleGraph.edge_adj, SimpleGraph.bot_adj, false_or]
      omega) rfl (by decide)
  · exact not_reachable (T := fun a => a < 3) (by
      simp only [SimpleGraph.sup_adj, SimpleGraph.edge_adj, SimpleGraph.bot_adj, false_or]
      omega) (by decide) (by decide)

/-- C113 applies to this network: it has a join tree, and no table in it has more than 8 entries. -/
example : ∃ jt, buildJoinTree exNd exPoly = .ok jt ∧ ∀ c ∈ jt.cliques, ∏ _v ∈ c, 2 ≤ 8 := by
  obtain ⟨jt, h⟩ := (join_tree_only_connected exNd_legal exPoly_wf).2 ⟨by decide, by
    have h2 : ∀ u ∈ exPoly.map Node.var, Graph.WConn (arrows exPoly) u 2 := by
      have e0 : Graph.WConn (arrows exPoly) 0 2 := Graph.wconn_of_mem (by decide : ((0, 2) : ℕ × ℕ) ∈ arrows exPoly)
      have e1 : Graph.WConn (arrows exPoly) 1 2 := Graph.wconn_of_mem (by decide : ((1, 2) : ℕ × ℕ) ∈ arrows exPoly)
      have e2 : Graph.WConn (arrows exPoly) 2 3 := Graph.wconn_of_mem (by decide : ((2, 3) : ℕ × ℕ) ∈ arrows exPoly)
      intro u hu
      have hu : u ∈ ([0, 1, 2, 3] : List ℕ) := hu
      simp only [List.mem_cons, List.not_mem_nil, or_false] at hu
      rcases hu with rfl | rfl | rfl | rfl
      · exact e0
      · exact e1
      · exact .refl
      · exact e2.symm
    exact fun u hu v hv => (h2 u hu).trans (h2 v hv).symm⟩
  exact ⟨jt, h, polytree_tables exPoly_wf exPoly_acyclic (dom := fun _ => [true, false]) (by decide) (by decide) jt h⟩

/-- The square has a cycle without chord: triangulation adds an edge. -/
example : ¬ ∀ u ∈ exSquare.nodes, (triangulate priorityFunc exSquare).gm.nbr u = exSquare.nbr u := by
  rw [triangulate_chordal exSquare_wf]
  intro h
  obtain ⟨i, j, h1, h2, h3, h4⟩ := h 4 id le_rfl (by decide) (by simp) (by
    intro i hi
    have hi : i < 3 := by omega
    interval_cases i <;> decide) (by decide)
  have hi : i < 2 := by omega
  interval_cases i <;> interval_cases j <;> first | omega | exact absurd h4 (by decide)

/-- The path `1 – 0 – 2`. -/
def exPath : UG ℕ := ⟨[0, 1, 2], fun v => if v = 0 then {1, 2} else if v < 3 then {0} else ∅⟩

theorem exPath_wf : exPath.WF := ⟨by decide, by decide, by decide, by decide⟩

/-- The greedy order starts with the first of the two ends. -/
example : ∃ l, (triangulate priorityFunc exPath).order = 1 :: l := by
  have h := triangulate_min_fill exPath_wf
  have hp := (triangulate_correct priorityFunc exPath_wf).1
  cases ho : (triangulate priorityFunc exPath).order with
  | nil =>
    rw [ho] at hp
    exact absurd hp.length_eq (by decide)
  | cons v l =>
    rw [ho] at h
    obtain ⟨h1, h2, -⟩ := h
    have h3 := h2 1 (by decide)
    rw [(missing_zero exPath_wf (v := 1) (by decide)).2 (by decide)] at h3
    have h4 : missingEdges exPath.nodes.toFinset (fun a b => b ∈ exPath.nbr a) v = 0 := by omega
    have h5 : v ≤ 1 := by omega
    have h6 : v ≠ 0 := by
      rintro rfl
      have := (missing_zero exPath_wf (v := 0) (by decide)).1 h4 1 (by decide) 2 (by decide) (by decide)
      exact absurd this (by decide)
    have : v = 1 := by omega
    exact ⟨l, by rw [this]⟩

end Verif.BBN
