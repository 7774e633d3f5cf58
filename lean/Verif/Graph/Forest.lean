import Verif.Graph.Basic
import Mathlib.Data.Finset.Card
import Mathlib.Data.Set.Basic
import Mathlib.Algebra.Order.BigOperators.Group.Finset
import Mathlib.Tactic.Linarith

/-!
# Undirected forests given by edge lists

Counting connected components, and the fact that deleting an edge of a forest separates its two
ends.
-/

namespace Verif.Graph

variable {N : Type}

theorem Link.symm' {E : List (N × N)} {a b : N} (h : Link E a b) : Link E b a := Or.symm h

theorem wconn_of_mem {E : List (N × N)} {a b : N} (h : (a, b) ∈ E) : WConn E a b :=
  Relation.ReflTransGen.single (Or.inl h)

theorem wconn_mono {E F : List (N × N)} (h : ∀ e ∈ E, e ∈ F) {a b : N} (hab : WConn E a b) :
    WConn F a b := by
  induction hab with
  | refl => exact .refl
  | tail _ hl ih => exact ih.tail (hl.imp (h _) (h _))

/-- If every edge of `E` joins `F`-connected nodes, so does every path. -/
theorem wconn_lift {E F : List (N × N)} (h : ∀ e ∈ E, WConn F e.1 e.2) {a b : N}
    (hab : WConn E a b) : WConn F a b := by
  induction hab with
  | refl => exact .refl
  | tail _ hl ih =>
    rcases hl with hl | hl
    · exact ih.trans (h _ hl)
    · exact ih.trans (h _ hl).symm

theorem wconn_cons {E : List (N × N)} {a b x y : N} :
    WConn ((a, b) :: E) x y ↔
      WConn E x y ∨ (WConn E x a ∧ WConn E b y) ∨ (WConn E x b ∧ WConn E a y) := by
  constructor
  · intro h
    induction h with
    | refl => exact Or.inl .refl
    | tail _ hl ih =>
      rename_i y z _
      have hstep : WConn E y z ∨ (y = a ∧ z = b) ∨ (y = b ∧ z = a) := by
        rcases hl with hl | hl
        · rcases List.mem_cons.1 hl with h | h
          · simp only [Prod.mk.injEq] at h; exact Or.inr (Or.inl h)
          · exact Or.inl (wconn_of_mem h)
        · rcases List.mem_cons.1 hl with h | h
          · simp only [Prod.mk.injEq] at h; exact Or.inr (Or.inr ⟨h.2, h.1⟩)
          · exact Or.inl (wconn_of_mem h).symm
      rcases hstep with hs | ⟨rfl, rfl⟩ | ⟨rfl, rfl⟩
      · rcases ih with h | ⟨h, h'⟩ | ⟨h, h'⟩
        · exact Or.inl (h.trans hs)
        · exact Or.inr (Or.inl ⟨h, h'.trans hs⟩)
        · exact Or.inr (Or.inr ⟨h, h'.trans hs⟩)
      · rcases ih with h | ⟨h, h'⟩ | ⟨h, h'⟩
        · exact Or.inr (Or.inl ⟨h, .refl⟩)
        · exact Or.inr (Or.inl ⟨h, .refl⟩)
        · exact Or.inl h
      · rcases ih with h | ⟨h, h'⟩ | ⟨h, h'⟩
        · exact Or.inr (Or.inr ⟨h, .refl⟩)
        · exact Or.inl h
        · exact Or.inr (Or.inr ⟨h, .refl⟩)
  · have hE : ∀ {u v}, WConn E u v → WConn ((a, b) :: E) u v := fun h =>
      wconn_mono (fun _ he => List.mem_cons_of_mem _ he) h
    have hab : WConn ((a, b) :: E) a b := wconn_of_mem List.mem_cons_self
    rintro (h | ⟨h, h'⟩ | ⟨h, h'⟩)
    · exact hE h
    · exact ((hE h).trans hab).trans (hE h')
    · exact ((hE h).trans hab.symm).trans (hE h')

/-- The edges added one at a time always join different components. -/
def Forest : List (N × N) → Prop
  | [] => True
  | e :: E => ¬ WConn E e.1 e.2 ∧ Forest E

theorem Forest.sublist {E F : List (N × N)} (h : E.Sublist F) (hF : Forest F) : Forest E := by
  induction h with
  | slnil => trivial
  | cons a _ ih => exact ih hF.2
  | cons_cons a hs ih =>
    exact ⟨fun hc => hF.1 (wconn_mono (fun _ he => hs.subset he) hc), ih hF.2⟩

section Count
open Classical

/-- The component of `a`, as a set. -/
def cls (E : List (N × N)) (a : N) : Set N := {b | WConn E a b}

theorem cls_eq_iff {E : List (N × N)} {a b : N} : cls E a = cls E b ↔ WConn E a b := by
  constructor
  · intro h
    have : b ∈ cls E b := Relation.ReflTransGen.refl
    rw [← h] at this
    exact this
  · intro h
    ext c
    exact ⟨fun hc => h.symm.trans hc, fun hc => h.trans hc⟩

/-- Number of components meeting `W`. -/
noncomputable def nc (E : List (N × N)) (W : Finset N) : ℕ := (W.image (cls E)).card

theorem card_image_le_of_factors {α β γ : Type} {W : Finset α} {f : α → β} {g : α → γ}
    (h : ∀ a ∈ W, ∀ b ∈ W, f a = f b → g a = g b) : (W.image g).card ≤ (W.image f).card := by
  rcases W.eq_empty_or_nonempty with rfl | ⟨w, _⟩
  · simp
  have hx : ∀ y ∈ W.image f, ∃ a ∈ W, f a = y := fun y hy => Finset.mem_image.1 hy
  let pick : β → γ := fun y => if hy : y ∈ W.image f then g (hx y hy).choose else g w
  have : W.image g ⊆ (W.image f).image pick := by
    intro z hz
    obtain ⟨a, ha, rfl⟩ := Finset.mem_image.1 hz
    have hfa : f a ∈ W.image f := Finset.mem_image_of_mem f ha
    refine Finset.mem_image.2 ⟨f a, hfa, ?_⟩
    simp only [pick, hfa, dif_pos]
    have hc := (hx (f a) hfa).choose_spec
    exact h _ hc.1 _ ha hc.2
  exact (Finset.card_le_card this).trans Finset.card_image_le

theorem nc_mono {E F : List (N × N)} (W : Finset N)
    (h : ∀ a ∈ W, ∀ b ∈ W, WConn E a b → WConn F a b) : nc F W ≤ nc E W :=
  card_image_le_of_factors fun a ha b hb hab => cls_eq_iff.2 (h a ha b hb (cls_eq_iff.1 hab))

/-- Joining two different components loses at least one. -/
theorem nc_cons_lt {E : List (N × N)} {a b : N} {W : Finset N} (ha : a ∈ W) (hb : b ∈ W)
    (hab : ¬ WConn E a b) : nc ((a, b) :: E) W + 1 ≤ nc E W := by
  let W' := W.filter fun x => ¬ WConn E a x
  have h1 : W.image (cls ((a, b) :: E)) ⊆ W'.image (cls ((a, b) :: E)) := by
    intro z hz
    obtain ⟨x, hx, rfl⟩ := Finset.mem_image.1 hz
    by_cases hax : WConn E a x
    · refine Finset.mem_image.2 ⟨b, Finset.mem_filter.2 ⟨hb, hab⟩, ?_⟩
      rw [cls_eq_iff, wconn_cons]
      exact Or.inr (Or.inr ⟨.refl, hax⟩)
    · exact Finset.mem_image.2 ⟨x, Finset.mem_filter.2 ⟨hx, hax⟩, rfl⟩
  have h2 : (W'.image (cls ((a, b) :: E))).card ≤ (W'.image (cls E)).card :=
    card_image_le_of_factors fun x _ y _ hxy =>
      cls_eq_iff.2 (wconn_cons.2 (Or.inl (cls_eq_iff.1 hxy)))
  have h3 : W'.image (cls E) ⊆ (W.image (cls E)).erase (cls E a) := by
    intro z hz
    obtain ⟨x, hx, rfl⟩ := Finset.mem_image.1 hz
    rw [Finset.mem_filter] at hx
    refine Finset.mem_erase.2 ⟨?_, Finset.mem_image_of_mem _ hx.1⟩
    intro h
    exact hx.2 (cls_eq_iff.1 h.symm)
  have h4 : cls E a ∈ W.image (cls E) := Finset.mem_image_of_mem _ ha
  have h5 := Finset.card_erase_of_mem h4
  have h6 : 0 < (W.image (cls E)).card := Finset.card_pos.2 ⟨_, h4⟩
  have h7 := Finset.card_le_card h1
  have h8 := Finset.card_le_card h3
  unfold nc
  omega

/-- One edge loses at most one component. -/
theorem nc_le_cons (E : List (N × N)) (e : N × N) (W : Finset N) : nc E W ≤ nc (e :: E) W + 1 := by
  obtain ⟨a, b⟩ := e
  let W' := W.filter fun x => ¬ WConn E a x
  have h1 : W.image (cls E) ⊆ insert (cls E a) (W'.image (cls E)) := by
    intro z hz
    obtain ⟨x, hx, rfl⟩ := Finset.mem_image.1 hz
    by_cases hax : WConn E a x
    · exact Finset.mem_insert.2 (Or.inl (cls_eq_iff.2 hax).symm)
    · exact Finset.mem_insert_of_mem (Finset.mem_image.2 ⟨x, Finset.mem_filter.2 ⟨hx, hax⟩, rfl⟩)
  have h2 : (W'.image (cls E)).card ≤ (W'.image (cls ((a, b) :: E))).card := by
    refine card_image_le_of_factors fun x hx y hy hxy => ?_
    rw [Finset.mem_filter] at hx hy
    rcases wconn_cons.1 (cls_eq_iff.1 hxy) with h | ⟨h, _⟩ | ⟨_, h⟩
    · exact cls_eq_iff.2 h
    · exact absurd h.symm hx.2
    · exact absurd h hy.2
  have h3 : W'.image (cls ((a, b) :: E)) ⊆ W.image (cls ((a, b) :: E)) :=
    Finset.image_subset_image (Finset.filter_subset _ _)
  have h4 := Finset.card_le_card h1
  have h5 := Finset.card_insert_le (cls E a) (W'.image (cls E))
  have h6 := Finset.card_le_card h3
  unfold nc
  omega

theorem nc_nil (W : Finset N) : nc ([] : List (N × N)) W = W.card := by
  unfold nc
  apply Finset.card_image_of_injective
  intro a b h
  have := cls_eq_iff.1 h
  induction this with
  | refl => rfl
  | tail _ hl _ => rcases hl with hl | hl <;> simp at hl

theorem le_length_add_nc (E : List (N × N)) (W : Finset N) : W.card ≤ E.length + nc E W := by
  induction E with
  | nil => simp [nc_nil]
  | cons e E ih =>
    have := nc_le_cons E e W
    simp only [List.length_cons]
    omega

theorem Forest.length_add_nc {E : List (N × N)} (hE : Forest E) {W : Finset N}
    (hW : ∀ e ∈ E, e.1 ∈ W ∧ e.2 ∈ W) : E.length + nc E W = W.card := by
  refine le_antisymm ?_ (le_length_add_nc E W)
  induction E with
  | nil => simp [nc_nil]
  | cons e E ih =>
    have h1 := ih hE.2 (fun e he => hW e (List.mem_cons_of_mem _ he))
    have h2 := hW e List.mem_cons_self
    have h3 : nc (e :: E) W + 1 ≤ nc E W := nc_cons_lt h2.1 h2.2 hE.1
    simp only [List.length_cons]
    omega

theorem nc_pos {E : List (N × N)} {W : Finset N} (h : W.Nonempty) : 1 ≤ nc E W :=
  Finset.card_pos.2 (h.image _)

theorem wconn_of_nc_le_one {E : List (N × N)} {W : Finset N} (h : nc E W ≤ 1) {a b : N}
    (ha : a ∈ W) (hb : b ∈ W) : WConn E a b := by
  unfold nc at h
  rw [Finset.card_le_one] at h
  exact cls_eq_iff.1 (h _ (Finset.mem_image_of_mem _ ha) _ (Finset.mem_image_of_mem _ hb))

theorem nc_le_one_of_wconn {E : List (N × N)} {W : Finset N}
    (h : ∀ a ∈ W, ∀ b ∈ W, WConn E a b) : nc E W ≤ 1 := by
  unfold nc
  rw [Finset.card_le_one]
  intro x hx y hy
  obtain ⟨a, ha, rfl⟩ := Finset.mem_image.1 hx
  obtain ⟨b, hb, rfl⟩ := Finset.mem_image.1 hy
  exact cls_eq_iff.2 (h a ha b hb)

/-- Removing one edge of a forest separates its ends. -/
theorem Forest.not_wconn_erase [DecidableEq N] {E : List (N × N)} (hE : Forest E) {e : N × N}
    (he : e ∈ E) : ¬ WConn (E.erase e) e.1 e.2 := by
  intro hc
  let W : Finset N := (E.map Prod.fst).toFinset ∪ (E.map Prod.snd).toFinset
  have hW : ∀ e ∈ E, e.1 ∈ W ∧ e.2 ∈ W := by
    intro e he
    constructor
    · exact Finset.mem_union_left _ (List.mem_toFinset.2 (List.mem_map_of_mem he))
    · exact Finset.mem_union_right _ (List.mem_toFinset.2 (List.mem_map_of_mem he))
  have h1 := hE.length_add_nc hW
  have h2 := le_length_add_nc (E.erase e) W
  have h3 : nc (E.erase e) W ≤ nc E W := by
    apply nc_mono
    intro a _ b _ hab
    refine wconn_lift (fun f hf => ?_) hab
    by_cases hfe : f = e
    · subst hfe; exact hc
    · exact wconn_of_mem ((List.mem_erase_of_ne hfe).2 hf)
  have h4 := List.length_erase_of_mem he
  have h5 : 0 < E.length := List.length_pos_of_mem he
  omega

end Count

/-! ### Transport along an injective relabelling -/

theorem wconn_map {M : Type} {f : N → M} {E : List (N × N)} {a b : N} (h : WConn E a b) :
    WConn (E.map (Prod.map f f)) (f a) (f b) := by
  induction h with
  | refl => exact .refl
  | tail _ hl ih =>
    refine ih.tail (hl.imp (fun h => ?_) (fun h => ?_)) <;> exact List.mem_map.2 ⟨_, h, rfl⟩

theorem wconn_of_map {M : Type} {f : N → M} {E : List (N × N)} {A : Set N}
    (hA : ∀ e ∈ E, e.1 ∈ A ∧ e.2 ∈ A) (hf : Set.InjOn f A) {a b : N} (ha : a ∈ A) (hb : b ∈ A)
    (h : WConn (E.map (Prod.map f f)) (f a) (f b)) : WConn E a b := by
  have key : ∀ y, WConn (E.map (Prod.map f f)) (f a) y → ∃ c ∈ A, f c = y ∧ WConn E a c := by
    intro y hy
    induction hy with
    | refl => exact ⟨a, ha, rfl, .refl⟩
    | tail _ hl ih =>
      obtain ⟨c, hcA, hc, hac⟩ := ih
      rcases hl with hl | hl
      · obtain ⟨e, he, hee⟩ := List.mem_map.1 hl
        simp only [Prod.map, Prod.mk.injEq] at hee
        have hce : e.1 = c := hf (hA e he).1 hcA (hee.1.trans hc.symm)
        exact ⟨e.2, (hA e he).2, hee.2, hac.tail (Or.inl (hce ▸ he))⟩
      · obtain ⟨e, he, hee⟩ := List.mem_map.1 hl
        simp only [Prod.map, Prod.mk.injEq] at hee
        have hce : e.2 = c := hf (hA e he).2 hcA (hee.2.trans hc.symm)
        exact ⟨e.1, (hA e he).1, hee.1, hac.tail (Or.inr (hce ▸ he))⟩
  obtain ⟨c, hcA, hc, hac⟩ := key _ h
  rw [← hf hcA hb hc]
  exact hac

theorem Forest.map {M : Type} {f : N → M} {E : List (N × N)} {A : Set N}
    (hA : ∀ e ∈ E, e.1 ∈ A ∧ e.2 ∈ A) (hf : Set.InjOn f A) (hE : Forest E) :
    Forest (E.map (Prod.map f f)) := by
  induction E with
  | nil => trivial
  | cons e E ih =>
    have hA' : ∀ e ∈ E, e.1 ∈ A ∧ e.2 ∈ A := fun e he => hA e (List.mem_cons_of_mem _ he)
    refine ⟨fun hc => hE.1 ?_, ih hA' hE.2⟩
    exact wconn_of_map hA' hf (hA e List.mem_cons_self).1 (hA e List.mem_cons_self).2 hc

/-! ### Branches of a forest -/

section Branch
variable [DecidableEq N]

/-- The edges other than those joining `s` and `i`. -/
def cut (E : List (N × N)) (s i : N) : List (N × N) :=
  E.filter fun e => e ≠ (s, i) ∧ e ≠ (i, s)

/-- The nodes reached from `i` without going through the edge `s – i`. -/
def Branch (E : List (N × N)) (s i x : N) : Prop := WConn (cut E s i) i x

theorem mem_cut {E : List (N × N)} {s i : N} {e : N × N} :
    e ∈ cut E s i ↔ e ∈ E ∧ e ≠ (s, i) ∧ e ≠ (i, s) := by
  simp [cut, List.mem_filter]

theorem Forest.not_branch {E : List (N × N)} (hE : Forest E) {s i : N} (h : Link E s i) :
    ¬ Branch E s i s := by
  intro hb
  rcases h with h | h
  · refine hE.not_wconn_erase h ((wconn_mono ?_ hb).symm)
    intro e he
    rw [mem_cut] at he
    exact (List.mem_erase_of_ne he.2.1).2 he.1
  · refine hE.not_wconn_erase h (wconn_mono ?_ hb)
    intro e he
    rw [mem_cut] at he
    exact (List.mem_erase_of_ne he.2.2).2 he.1

theorem Forest.link_irrefl {E : List (N × N)} (hE : Forest E) {s : N} : ¬ Link E s s :=
  fun h => hE.not_branch h .refl

theorem link_cut {E : List (N × N)} {s i a b : N} (h : Link E a b) (h1 : ¬ (a = s ∧ b = i))
    (h2 : ¬ (a = i ∧ b = s)) : Link (cut E s i) a b := by
  rcases h with h | h
  · left; rw [mem_cut]; simp only [ne_eq, Prod.mk.injEq]; exact ⟨h, h1, h2⟩
  · right; rw [mem_cut]; simp only [ne_eq, Prod.mk.injEq]
    exact ⟨h, fun h' => h2 ⟨h'.2, h'.1⟩, fun h' => h1 ⟨h'.2, h'.1⟩⟩

theorem link_of_cut {E : List (N × N)} {s i a b : N} (h : Link (cut E s i) a b) :
    Link E a b ∧ ¬ (a = s ∧ b = i) ∧ ¬ (a = i ∧ b = s) := by
  rcases h with h | h
  · rw [mem_cut] at h; simp only [ne_eq, Prod.mk.injEq] at h
    exact ⟨Or.inl h.1, h.2.1, h.2.2⟩
  · rw [mem_cut] at h; simp only [ne_eq, Prod.mk.injEq] at h
    exact ⟨Or.inr h.1, fun h' => h.2.2 ⟨h'.2, h'.1⟩, fun h' => h.2.1 ⟨h'.2, h'.1⟩⟩

/-- A branch at `i` through `k` stays away from `i`, so it survives any cut at `i`. -/
theorem Forest.branch_avoid {E : List (N × N)} (hE : Forest E) {i k x : N} (hik : Link E i k)
    (h : Branch E i k x) (s : N) : WConn (cut E s i) k x := by
  unfold Branch at h
  induction h with
  | refl => exact .refl
  | tail hp hl ih =>
    rename_i y z
    have hl' := link_of_cut hl
    have hy : y ≠ i := by
      rintro rfl
      exact hE.not_branch hik hp
    have hz : z ≠ i := by
      rintro rfl
      exact hE.not_branch hik (hp.tail hl)
    exact ih.tail (link_cut hl'.1 (fun h => hz h.2) (fun h => hy h.1))

/-- A branch consists of its root and the branches through the other neighbours. -/
theorem Forest.branch_iff {E : List (N × N)} (hE : Forest E) {s i x : N} :
    Branch E s i x ↔ x = i ∨ ∃ k, Link E i k ∧ k ≠ s ∧ Branch E i k x := by
  constructor
  · intro h
    unfold Branch at h
    induction h with
    | refl => exact Or.inl rfl
    | tail hp hl ih =>
      rename_i y z
      obtain ⟨hl1, hl2, hl3⟩ := link_of_cut hl
      by_cases hz : z = i
      · exact Or.inl hz
      right
      rcases ih with rfl | ⟨k, hk, hks, hb⟩
      · exact ⟨z, hl1, fun h => hl3 ⟨rfl, h⟩, .refl⟩
      · refine ⟨k, hk, hks, hb.tail (link_cut hl1 ?_ ?_)⟩
        · rintro ⟨rfl, -⟩
          exact hE.not_branch hk hb
        · rintro ⟨-, h⟩
          exact hz h
  · rintro (rfl | ⟨k, hk, hks, hb⟩)
    · exact .refl
    · have h1 := hE.branch_avoid hk hb s
      refine Relation.ReflTransGen.head (link_cut hk ?_ (fun h => hks h.2)) h1
      rintro ⟨-, h⟩
      exact hE.link_irrefl (h ▸ hk)

/-- Branches through different neighbours are disjoint. -/
theorem Forest.branch_disjoint {E : List (N × N)} (hE : Forest E) {i k k' x : N}
    (hk : Link E i k) (hk' : Link E i k') (hne : k ≠ k') (h : Branch E i k x)
    (h' : Branch E i k' x) : False := by
  have h1 : WConn (cut E k i) k' x := hE.branch_avoid hk' h' k
  have h2 : WConn (cut E k i) k x := hE.branch_avoid hk h k
  have h3 : Link (cut E k i) k' i := link_cut hk'.symm' (fun h => hne h.1.symm)
    (fun h => hE.link_irrefl (h.1 ▸ hk'))
  have h4 : WConn (cut E k i) k i := (h2.trans h1.symm).tail h3
  have h5 : ∀ {u v}, WConn (cut E k i) u v → WConn (cut E i k) u v := fun h =>
    wconn_mono (fun e he => by rw [mem_cut] at he ⊢; tauto) h
  exact hE.not_branch hk (h5 h4)

/-- The nodes connected to `i` are `i` and the branches through its neighbours. -/
theorem Forest.wconn_iff {E : List (N × N)} (hE : Forest E) {i x : N} :
    WConn E i x ↔ x = i ∨ ∃ k, Link E i k ∧ Branch E i k x := by
  constructor
  · intro h
    induction h with
    | refl => exact Or.inl rfl
    | tail hp hl ih =>
      rename_i y z
      by_cases hz : z = i
      · exact Or.inl hz
      right
      rcases ih with rfl | ⟨k, hk, hb⟩
      · exact ⟨z, hl, .refl⟩
      · refine ⟨k, hk, hb.tail (link_cut hl ?_ ?_)⟩
        · rintro ⟨rfl, -⟩
          exact hE.not_branch hk hb
        · rintro ⟨-, h⟩
          exact hz h
  · rintro (rfl | ⟨k, hk, hb⟩)
    · exact .refl
    · exact Relation.ReflTransGen.head hk (wconn_mono (fun e he => (mem_cut.1 he).1) hb)

end Branch

end Verif.Graph
