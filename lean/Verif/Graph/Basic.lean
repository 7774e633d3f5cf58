import Mathlib.Logic.Relation
import Mathlib.Data.Finset.Card
import Mathlib.Data.Finset.Image
import Mathlib.Data.Finset.Filter
import Mathlib.Data.Fintype.Pigeonhole
import Mathlib.Data.Fintype.EquivFin

/-!
# Directed graphs as lists

Shared model of the networkx queries used by the code base:

* `nx.algorithms.is_directed_acyclic_graph` (Kahn's peeling of sources), used in
  `/repo/causalnex/structure/structuremodel.py:301`, `/repo/causalnex/network/network.py:137`,
  `/repo/causalnex/structure/data_generators/core.py`;
* `nx.weakly_connected_components` (closure under neighbours), used in
  `/repo/causalnex/structure/structuremodel.py:266,289`, `/repo/causalnex/network/network.py:127`.

networkx is an external library; these are executable models of its documented behaviour.
The specification side (`Acyclic`, `WConn`) is path based.
-/

namespace Verif.Graph

variable {N : Type*} [DecidableEq N]

/-! ## Specification -/

/-- `a → b` is an edge of the list. -/
def EdgeRel (E : List (N × N)) (a b : N) : Prop := (a, b) ∈ E

/-- No directed closed walk of positive length. -/
def Acyclic (E : List (N × N)) : Prop := ∀ v, ¬ Relation.TransGen (EdgeRel E) v v

/-- `a` and `b` are linked by an edge in either direction. -/
def Link (E : List (N × N)) (a b : N) : Prop := (a, b) ∈ E ∨ (b, a) ∈ E

/-- `a` and `b` are in the same weakly connected component. -/
def WConn (E : List (N × N)) : N → N → Prop := Relation.ReflTransGen (Link E)

/-! ## Model of the networkx functions -/

/-- One round of Kahn's algorithm: drop the nodes without a remaining predecessor.
Models the source-peeling loop of `nx.topological_sort` (external), set-at-a-time. -/
def peelStep (E : List (N × N)) (ns : List N) : List N :=
  ns.filter (fun v => E.any (fun e => decide (e.2 = v) && decide (e.1 ∈ ns)))

/-- Iterated peeling. -/
def peel (E : List (N × N)) : ℕ → List N → List N
  | 0, ns => ns
  | k + 1, ns => peel E k (peelStep E ns)

/-- Model of `nx.algorithms.is_directed_acyclic_graph` (external): the graph is acyclic iff
repeatedly removing sources removes everything. -/
def isDag (ns : List N) (E : List (N × N)) : Bool := (peel E ns.length ns).isEmpty

/-- One level of `_plain_bfs` (networkx, external) ignoring directions. -/
def growStep (ns : List N) (E : List (N × N)) (S : List N) : List N :=
  ns.filter (fun v => decide (v ∈ S) ||
    E.any (fun e => (decide (e.1 = v) && decide (e.2 ∈ S)) || (decide (e.2 = v) && decide (e.1 ∈ S))))

/-- Iterated growth. -/
def grow (ns : List N) (E : List (N × N)) : ℕ → List N → List N
  | 0, S => S
  | k + 1, S => grow ns E k (growStep ns E S)

/-- The weakly connected component of `v` (networkx `_plain_bfs`, external). -/
def component (ns : List N) (E : List (N × N)) (v : N) : List N :=
  grow ns E ns.length (ns.filter (fun u => decide (u = v)))

/-- Model of `nx.weakly_connected_components` (external): scan the nodes, emit the component of
each node not seen before. -/
def components (ns : List N) (E : List (N × N)) : List N → List N → List (List N)
  | [], _ => []
  | v :: vs, seen =>
    if v ∈ seen then components ns E vs seen
    else
      let c := component ns E v
      c :: components ns E vs (seen ++ c)

/-- All weakly connected components in node order. -/
def weakComponents (ns : List N) (E : List (N × N)) : List (List N) := components ns E ns []

/-! ## Correctness of peeling -/

omit [DecidableEq N] in
lemma Acyclic.mono {E F : List (N × N)} (h : ∀ e ∈ E, e ∈ F) (hF : Acyclic F) : Acyclic E := by
  intro v hv
  exact hF v (Relation.TransGen.mono (fun a b (hab : EdgeRel E a b) => h _ hab) v v hv)

lemma mem_peelStep {E : List (N × N)} {ns : List N} {v : N} :
    v ∈ peelStep E ns ↔ v ∈ ns ∧ ∃ u ∈ ns, (u, v) ∈ E := by
  simp only [peelStep, List.mem_filter, List.any_eq_true, Bool.and_eq_true, decide_eq_true_eq]
  constructor
  · rintro ⟨h, ⟨a, b⟩, he, rfl, hu⟩
    exact ⟨h, a, hu, he⟩
  · rintro ⟨h, u, hu, he⟩
    exact ⟨h, (u, v), he, rfl, hu⟩

lemma peelStep_length_le (E : List (N × N)) (ns : List N) : (peelStep E ns).length ≤ ns.length :=
  List.length_filter_le _ _

lemma peelStep_eq_of_length {E : List (N × N)} {ns : List N}
    (h : (peelStep E ns).length = ns.length) : peelStep E ns = ns := by
  unfold peelStep at *
  exact List.filter_sublist.eq_of_length h

/-- A set closed under taking some predecessor survives peeling. -/
lemma subset_peel {E : List (N × N)} {S : N → Prop}
    (hS : ∀ v, S v → ∃ u, S u ∧ (u, v) ∈ E) :
    ∀ (k : ℕ) (ns : List N), (∀ v, S v → v ∈ ns) → ∀ v, S v → v ∈ peel E k ns := by
  intro k
  induction k with
  | zero => intro ns h v hv; exact h v hv
  | succ k ih =>
    intro ns h v hv
    refine ih _ ?_ v hv
    intro w hw
    rw [mem_peelStep]
    obtain ⟨u, hu, he⟩ := hS w hw
    exact ⟨h w hw, u, h u hu, he⟩

lemma peel_of_fix {E : List (N × N)} {ns : List N} (h : peelStep E ns = ns) (k : ℕ) :
    peel E k ns = ns := by
  induction k with
  | zero => rfl
  | succ k ih => rw [peel, h, ih]

/-- After `length` rounds peeling has stabilised. -/
lemma peel_fix (E : List (N × N)) :
    ∀ (k : ℕ) (ns : List N), ns.length ≤ k → peelStep E (peel E k ns) = peel E k ns := by
  intro k
  induction k with
  | zero =>
    intro ns h
    have : ns = [] := List.length_eq_zero_iff.mp (by omega)
    subst this; rfl
  | succ k ih =>
    intro ns h
    by_cases hl : (peelStep E ns).length = ns.length
    · have := peelStep_eq_of_length hl
      rw [peel_of_fix this, this]
    · have := peelStep_length_le E ns
      exact ih _ (by omega)

/-- In a nonempty finite set where each element has a predecessor there is a cycle. -/
lemma exists_cycle_of_pred {R : N → N → Prop} (L : List N) (hne : L ≠ [])
    (hp : ∀ v ∈ L, ∃ u ∈ L, R u v) : ∃ v, Relation.TransGen R v v := by
  classical
  obtain ⟨v0, hv0⟩ := List.exists_mem_of_ne_nil L hne
  choose! f hf using hp
  have hmem : ∀ n, (f^[n]) v0 ∈ L := by
    intro n
    induction n with
    | zero => simpa using hv0
    | succ n ih => rw [Function.iterate_succ_apply']; exact (hf _ ih).1
  have hstep : ∀ n k, Relation.TransGen R ((f^[n + (k+1)]) v0) ((f^[n]) v0) := by
    intro n k
    induction k with
    | zero =>
      refine Relation.TransGen.single ?_
      have := (hf _ (hmem n)).2
      rwa [← Function.iterate_succ_apply' f] at this
    | succ k ih =>
      refine Relation.TransGen.head ?_ ih
      have := (hf _ (hmem (n + (k+1)))).2
      rwa [← Function.iterate_succ_apply' f] at this
  obtain ⟨m, n, hmn, he⟩ :=
    Finite.exists_ne_map_eq_of_infinite (fun n : ℕ => (⟨(f^[n]) v0, hmem n⟩ : {x // x ∈ L}))
  have he : (f^[m]) v0 = (f^[n]) v0 := by simpa using he
  rcases lt_or_gt_of_ne hmn with h | h
  · obtain ⟨k, rfl⟩ := Nat.exists_eq_add_of_lt h
    have := hstep m k
    rw [show m + (k+1) = m + k + 1 by omega, ← he] at this
    exact ⟨_, this⟩
  · obtain ⟨k, rfl⟩ := Nat.exists_eq_add_of_lt h
    have := hstep n k
    rw [show n + (k+1) = n + k + 1 by omega, he] at this
    exact ⟨_, this⟩

/-- `isDag` decides acyclicity, for every graph whose edges join listed nodes. -/
theorem isDag_iff (ns : List N) (E : List (N × N)) (hE : ∀ e ∈ E, e.1 ∈ ns ∧ e.2 ∈ ns) :
    isDag ns E = true ↔ Acyclic E := by
  unfold isDag
  rw [List.isEmpty_iff]
  constructor
  · intro h v hv
    let S : N → Prop := fun w => Relation.TransGen (EdgeRel E) w v ∧ Relation.TransGen (EdgeRel E) v w
    have hS : ∀ w, S w → ∃ u, S u ∧ (u, w) ∈ E := by
      rintro w ⟨h1, h2⟩
      rcases Relation.TransGen.tail'_iff.mp h2 with ⟨u, hvu, huw⟩
      refine ⟨u, ⟨Relation.TransGen.head huw h1, ?_⟩, huw⟩
      rcases Relation.reflTransGen_iff_eq_or_transGen.mp hvu with rfl | h
      · exact hv
      · exact h
    have hin : ∀ w, S w → w ∈ ns := by
      intro w hw
      obtain ⟨u, _, he⟩ := hS w hw
      exact (hE _ he).2
    have := subset_peel hS ns.length ns hin v ⟨hv, hv⟩
    rw [h] at this
    simp at this
  · intro hac
    by_contra hne
    have hfix := peel_fix E ns.length ns le_rfl
    obtain ⟨v, hv⟩ := exists_cycle_of_pred (R := EdgeRel E) _ hne (by
      intro v hv
      rw [← hfix, mem_peelStep] at hv
      obtain ⟨_, u, hu, he⟩ := hv
      exact ⟨u, hu, he⟩)
    exact hac v hv

/-! ## Correctness of components -/

lemma mem_growStep {ns : List N} {E : List (N × N)} {S : List N} {v : N} :
    v ∈ growStep ns E S ↔ v ∈ ns ∧ (v ∈ S ∨ ∃ u ∈ S, Link E v u) := by
  simp only [growStep, List.mem_filter, Bool.or_eq_true, decide_eq_true_eq, List.any_eq_true,
    Bool.and_eq_true, Link]
  constructor
  · rintro ⟨h, h' | ⟨⟨a, b⟩, he, ⟨rfl, hb⟩ | ⟨rfl, ha⟩⟩⟩
    · exact ⟨h, Or.inl h'⟩
    · exact ⟨h, Or.inr ⟨b, hb, Or.inl he⟩⟩
    · exact ⟨h, Or.inr ⟨a, ha, Or.inr he⟩⟩
  · rintro ⟨h, h' | ⟨u, hu, he | he⟩⟩
    · exact ⟨h, Or.inl h'⟩
    · exact ⟨h, Or.inr ⟨_, he, Or.inl ⟨rfl, hu⟩⟩⟩
    · exact ⟨h, Or.inr ⟨_, he, Or.inr ⟨rfl, hu⟩⟩⟩

omit [DecidableEq N] in
lemma Link.symm {E : List (N × N)} {a b : N} (h : Link E a b) : Link E b a := Or.symm h

omit [DecidableEq N] in
lemma WConn.symm {E : List (N × N)} {a b : N} (h : WConn E a b) : WConn E b a := by
  induction h with
  | refl => exact Relation.ReflTransGen.refl
  | tail _ hl ih => exact Relation.ReflTransGen.head hl.symm ih

omit [DecidableEq N] in
lemma WConn.trans {E : List (N × N)} {a b c : N} (h : WConn E a b) (h' : WConn E b c) :
    WConn E a c := Relation.ReflTransGen.trans h h'

lemma grow_sound {ns : List N} {E : List (N × N)} {v : N} :
    ∀ (k : ℕ) (S : List N), (∀ u ∈ S, WConn E v u) → ∀ u ∈ grow ns E k S, WConn E v u := by
  intro k
  induction k with
  | zero => intro S h; exact h
  | succ k ih =>
    intro S h
    apply ih
    intro u hu
    rw [mem_growStep] at hu
    rcases hu with ⟨_, hu | ⟨w, hw, hl⟩⟩
    · exact h u hu
    · exact (h w hw).tail hl.symm

lemma grow_subset {ns : List N} {E : List (N × N)} :
    ∀ (k : ℕ) (S : List N), (∀ u ∈ S, u ∈ ns) → ∀ u ∈ grow ns E k S, u ∈ ns := by
  intro k
  induction k with
  | zero => intro S h; exact h
  | succ k ih =>
    intro S _
    apply ih
    intro u hu
    exact (mem_growStep.mp hu).1

lemma subset_grow {ns : List N} {E : List (N × N)} :
    ∀ (k : ℕ) (S : List N), (∀ u ∈ S, u ∈ ns) → ∀ u ∈ S, u ∈ grow ns E k S := by
  intro k
  induction k with
  | zero => intro S _ u h; exact h
  | succ k ih =>
    intro S h u hu
    refine ih _ (fun w hw => (mem_growStep.mp hw).1) u ?_
    rw [mem_growStep]; exact ⟨h u hu, Or.inl hu⟩

lemma grow_of_fix {ns : List N} {E : List (N × N)} {S : List N} (h : growStep ns E S = S) (k : ℕ) :
    grow ns E k S = S := by
  induction k with
  | zero => rfl
  | succ k ih => rw [grow, h, ih]

/-- `S` is the list of nodes satisfying some predicate, in node order. -/
private def IsSel (ns S : List N) : Prop := ∃ p : N → Bool, S = ns.filter p

private lemma growStep_isSel (ns : List N) (E : List (N × N)) (S : List N) :
    IsSel ns (growStep ns E S) := ⟨_, rfl⟩

private lemma growStep_length {ns : List N} {E : List (N × N)} {S : List N} (hS : IsSel ns S) :
    S.length ≤ (growStep ns E S).length ∧
      ((growStep ns E S).length = S.length → growStep ns E S = S) := by
  obtain ⟨p, rfl⟩ := hS
  have hsub : (ns.filter p).Sublist (growStep ns E (ns.filter p)) := by
    have hp : ns.filter p = ns.filter (fun v => decide (v ∈ ns.filter p)) := by
      apply List.filter_congr
      intro x hx
      simp [hx]
    conv_lhs => rw [hp]
    unfold growStep
    apply List.monotone_filter_right
    intro a ha
    rw [ha]; rfl
  exact ⟨hsub.length_le, fun h => (hsub.eq_of_length h.symm).symm⟩

private lemma grow_fix (ns : List N) (E : List (N × N)) :
    ∀ (k : ℕ) (S : List N), IsSel ns S → ns.length ≤ k + S.length →
      growStep ns E (grow ns E k S) = grow ns E k S := by
  intro k
  induction k with
  | zero =>
    intro S hS h
    obtain ⟨h1, h2⟩ := growStep_length (E := E) hS
    refine h2 ?_
    have : (growStep ns E S).length ≤ ns.length := List.length_filter_le _ _
    simp only [Nat.zero_add] at h
    omega
  | succ k ih =>
    intro S hS h
    obtain ⟨h1, h2⟩ := growStep_length (E := E) hS
    by_cases hl : (growStep ns E S).length = S.length
    · have := h2 hl
      rw [grow_of_fix this, this]
    · exact ih _ (growStep_isSel _ _ _) (by omega)

/-- The computed component of a node is exactly its weakly connected component. -/
theorem mem_component {ns : List N} {E : List (N × N)} (hE : ∀ e ∈ E, e.1 ∈ ns ∧ e.2 ∈ ns)
    {v : N} (hv : v ∈ ns) (u : N) : u ∈ component ns E v ↔ WConn E v u := by
  unfold component
  have hsel : IsSel ns (ns.filter (fun u => decide (u = v))) := ⟨_, rfl⟩
  constructor
  · apply grow_sound
    intro u hu
    simp only [List.mem_filter, decide_eq_true_eq] at hu
    rw [hu.2]; exact Relation.ReflTransGen.refl
  · intro h
    have hfix := grow_fix ns E ns.length _ hsel (by omega)
    induction h with
    | refl =>
      apply subset_grow
      · intro u hu; exact List.mem_of_mem_filter hu
      · simp [hv]
    | tail _ hl ih =>
      rename_i b c _
      rw [← hfix, mem_growStep]
      refine ⟨?_, Or.inr ⟨b, ih, hl.symm⟩⟩
      rcases hl with h | h
      · exact (hE _ h).2
      · exact (hE _ h).1

lemma component_subset (ns : List N) (E : List (N × N)) (v : N) :
    ∀ u ∈ component ns E v, u ∈ ns :=
  grow_subset _ _ (fun _ hu => List.mem_of_mem_filter hu)

lemma component_nodup {ns : List N} (h : ns.Nodup) (E : List (N × N)) (v : N) :
    (component ns E v).Nodup := by
  unfold component
  have : ∀ (k : ℕ) (S : List N), S.Nodup → (grow ns E k S).Nodup := by
    intro k
    induction k with
    | zero => intro S h; exact h
    | succ k ih => intro S _; exact ih _ (h.filter _)
  exact this _ _ (h.filter _)

private lemma components_spec {ns : List N} {E : List (N × N)}
    (hE : ∀ e ∈ E, e.1 ∈ ns ∧ e.2 ∈ ns) :
    ∀ (vs seen : List N), (∀ v ∈ vs, v ∈ ns) →
      (∀ u ∈ seen, ∀ w, WConn E u w → w ∈ seen) →
      (∀ c ∈ components ns E vs seen, ∃ v ∈ vs, c = component ns E v ∧ v ∉ seen) ∧
      (∀ v ∈ vs, v ∉ seen → ∃ c ∈ components ns E vs seen, v ∈ c) ∧
      (components ns E vs seen).Pairwise (fun c d => ∀ x ∈ c, x ∉ d) ∧
      (∀ c ∈ components ns E vs seen, ∀ x ∈ c, x ∉ seen) := by
  intro vs
  induction vs with
  | nil => intro seen _ _; simp [components]
  | cons v vs ih =>
    intro seen hvs hseen
    by_cases hv : v ∈ seen
    · obtain ⟨h1, h2, h3, h4⟩ := ih seen (fun w hw => hvs w (List.mem_cons_of_mem _ hw)) hseen
      simp only [components, hv, if_true]
      refine ⟨?_, ?_, h3, h4⟩
      · intro c hc
        obtain ⟨w, hw, h⟩ := h1 c hc
        exact ⟨w, List.mem_cons_of_mem _ hw, h⟩
      · intro w hw hws
        rcases List.mem_cons.mp hw with rfl | hw
        · exact absurd hv hws
        · exact h2 w hw hws
    · have hvn : v ∈ ns := hvs v List.mem_cons_self
      have hmem := fun u => mem_component hE hvn u
      obtain ⟨h1, h2, h3, h4⟩ := ih (seen ++ component ns E v)
        (fun w hw => hvs w (List.mem_cons_of_mem _ hw)) (by
          intro u hu w huw
          rw [List.mem_append] at hu ⊢
          rcases hu with hu | hu
          · exact Or.inl (hseen u hu w huw)
          · right
            rw [hmem] at hu ⊢
            exact hu.trans huw)
      simp only [components, hv, if_false]
      refine ⟨?_, ?_, ?_, ?_⟩
      · intro c hc
        rcases List.mem_cons.mp hc with rfl | hc
        · exact ⟨v, List.mem_cons_self, rfl, hv⟩
        · obtain ⟨w, hw, h, hn⟩ := h1 c hc
          exact ⟨w, List.mem_cons_of_mem _ hw, h, fun h => hn (List.mem_append_left _ h)⟩
      · intro w hw hws
        by_cases hwc : w ∈ component ns E v
        · exact ⟨_, List.mem_cons_self, hwc⟩
        · rcases List.mem_cons.mp hw with rfl | hw
          · exact absurd ((hmem w).mpr Relation.ReflTransGen.refl) hwc
          · obtain ⟨c, hc, hwc'⟩ := h2 w hw (by
              rw [List.mem_append]; rintro (h | h)
              · exact hws h
              · exact hwc h)
            exact ⟨c, List.mem_cons_of_mem _ hc, hwc'⟩
      · rw [List.pairwise_cons]
        refine ⟨?_, h3⟩
        intro d hd x hx hxd
        exact h4 d hd x hxd (List.mem_append_right _ hx)
      · intro c hc x hx hxs
        rcases List.mem_cons.mp hc with rfl | hc
        · rw [hmem] at hx
          exact hv (hseen x hxs v hx.symm)
        · exact h4 c hc x hx (List.mem_append_left _ hxs)

/-- Every listed component is the full component of one of its nodes. -/
theorem weakComponents_sound {ns : List N} {E : List (N × N)}
    (hE : ∀ e ∈ E, e.1 ∈ ns ∧ e.2 ∈ ns) {c : List N} (hc : c ∈ weakComponents ns E) :
    ∃ v ∈ ns, v ∈ c ∧ c = component ns E v := by
  obtain ⟨h1, -⟩ := components_spec hE ns [] (fun _ h => h) (by simp)
  obtain ⟨v, hv, h, -⟩ := h1 c hc
  exact ⟨v, hv, by rw [h, mem_component hE hv]; exact Relation.ReflTransGen.refl, h⟩

/-- Every node is in a listed component. -/
theorem weakComponents_complete {ns : List N} {E : List (N × N)}
    (hE : ∀ e ∈ E, e.1 ∈ ns ∧ e.2 ∈ ns) {v : N} (hv : v ∈ ns) :
    ∃ c ∈ weakComponents ns E, v ∈ c := by
  obtain ⟨-, h2, -⟩ := components_spec hE ns [] (fun _ h => h) (by simp)
  exact h2 v hv (by simp)

/-- Two listed components at different positions are disjoint. -/
theorem weakComponents_disjoint {ns : List N} {E : List (N × N)}
    (hE : ∀ e ∈ E, e.1 ∈ ns ∧ e.2 ∈ ns) :
    (weakComponents ns E).Pairwise (fun c d => ∀ x ∈ c, x ∉ d) :=
  (components_spec hE ns [] (fun _ h => h) (by simp)).2.2.1

/-- More than one component iff two nodes are not linked by any undirected path. -/
theorem weakComponents_length_le_one {ns : List N} {E : List (N × N)}
    (hE : ∀ e ∈ E, e.1 ∈ ns ∧ e.2 ∈ ns) :
    (weakComponents ns E).length ≤ 1 ↔ ∀ u ∈ ns, ∀ v ∈ ns, WConn E u v := by
  constructor
  · intro h u hu v hv
    obtain ⟨c, hc, huc⟩ := weakComponents_complete hE hu
    obtain ⟨d, hd, hvd⟩ := weakComponents_complete hE hv
    have : c = d := by
      rcases hl : weakComponents ns E with _ | ⟨a, _ | ⟨b, t⟩⟩
      · rw [hl] at hc; simp at hc
      · rw [hl] at hc hd; simp at hc hd; rw [hc, hd]
      · rw [hl] at h; simp at h
    subst this
    obtain ⟨w, hw, -, rfl⟩ := weakComponents_sound hE hc
    rw [mem_component hE hw] at huc hvd
    exact huc.symm.trans hvd
  · intro h
    rcases hl : weakComponents ns E with _ | ⟨a, _ | ⟨b, t⟩⟩
    · simp
    · simp
    · exfalso
      have hd := weakComponents_disjoint hE
      rw [hl, List.pairwise_cons] at hd
      obtain ⟨v, hv, hva, rfl⟩ := weakComponents_sound hE (c := a) (by rw [hl]; simp)
      obtain ⟨w, hw, hwb, rfl⟩ := weakComponents_sound hE (c := b) (by rw [hl]; simp)
      exact hd.1 _ List.mem_cons_self w ((mem_component hE hv w).mpr (h v hv w hw)) hwb

end Verif.Graph
