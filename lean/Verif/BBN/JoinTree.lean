import Verif.Graph.Forest
import Verif.BBN.Propagate
import Mathlib.Algebra.BigOperators.Group.Finset.Basic
import Mathlib.Algebra.Order.BigOperators.Group.Finset
import Mathlib.Data.List.Perm.Basic
import Mathlib.Data.List.Nodup

/-!
# Maximum-mass spanning trees of cliques are junction trees
-/

namespace Verif.BBN
open Verif.Graph (Link WConn wconn_of_mem wconn_mono wconn_lift wconn_cons nc)

section
variable {V : Type} [LinearOrder V]

/-- A junction tree on `n` cliques: a tree (connected, one edge less than nodes) such that the
cliques containing any given variable are connected through separators containing it. -/
structure IsJunctionTree (jt : JT V) : Prop where
  order_perm : jt.order.Perm (List.range jt.cliques.length)
  edge_lt : ∀ e ∈ jt.edges, e.1 < jt.cliques.length ∧ e.2 < jt.cliques.length
  connected : ∀ i j, i < jt.cliques.length → j < jt.cliques.length → WConn jt.edges i j
  edge_count : jt.edges.length + 1 = jt.cliques.length
  running : ∀ v i j, i < jt.cliques.length → j < jt.cliques.length →
    v ∈ clq jt.cliques i → v ∈ clq jt.cliques j →
    WConn (jt.edges.filter fun e => v ∈ label jt.cliques e) i j

theorem forest_of_connected {n : ℕ} : ∀ {E : List (ℕ × ℕ)},
    (∀ i j, i < n → j < n → WConn E i j) → E.length + 1 = n → (∀ e ∈ E, e.1 < n ∧ e.2 < n) →
    Graph.Forest E := by
  intro E hconn hlen hE
  -- work with all suffixes: each suffix `F` of `E` is as long as possible
  have key : ∀ (F : List (ℕ × ℕ)), (∀ e ∈ F, e.1 < n ∧ e.2 < n) →
      F.length + nc F (Finset.range n) ≤ n → Graph.Forest F := by
    intro F
    induction F with
    | nil => intro _ _; trivial
    | cons e F ih =>
      intro hF hc
      have h1 := Graph.nc_le_cons F e (Finset.range n)
      have h0 : F.length + nc F (Finset.range n) ≤ n := by
        simp only [List.length_cons] at hc; omega
      refine ⟨fun hw => ?_, ih (fun e he => hF e (List.mem_cons_of_mem _ he)) h0⟩
      have h2 : nc F (Finset.range n) ≤ nc (e :: F) (Finset.range n) := by
        apply Graph.nc_mono
        intro a _ b _ hab
        refine wconn_lift (fun f hf => ?_) hab
        rcases List.mem_cons.1 hf with rfl | hf
        · exact hw
        · exact wconn_of_mem hf
      have h3 := Graph.le_length_add_nc F (Finset.range n)
      simp only [Finset.card_range, List.length_cons] at h3 hc
      omega
  apply key E hE
  have : nc E (Finset.range n) ≤ 1 := Graph.nc_le_one_of_wconn fun a ha b hb =>
    hconn a b (Finset.mem_range.1 ha) (Finset.mem_range.1 hb)
  omega

theorem IsJunctionTree.forest {jt : JT V} (h : IsJunctionTree jt) : Graph.Forest jt.edges :=
  forest_of_connected h.connected h.edge_count h.edge_lt

/-! ### Rooting a tree -/

/-- `f` lists, below `s`, exactly the branches of the graph. -/
def RF.Good (E : List (ℕ × ℕ)) : ℕ → RF → Prop
  | _, .nil => True
  | s, .cons i kids sibs =>
    Link E s i ∧ (∀ x, (x = i ∨ x ∈ kids.labels) ↔ Graph.Branch E s i x) ∧
      kids.Good E i ∧ sibs.Good E s

/-- Assemble the branches of `s` through the nodes of `L`. -/
theorem rf_of_list {jt : JT V} {ord : ℕ → List ℕ} (hE : Graph.Forest jt.edges) (s : ℕ) :
    ∀ (L : List ℕ), L.Nodup →
      (∀ i ∈ L, Link jt.edges s i ∧ ∃ kids : RF, kids.roots = (ord i).filter (· ≠ s) ∧
        kids.Fits jt ord i ∧ kids.Good jt.edges i ∧ (i :: kids.labels).Nodup ∧
        ∀ x, (x = i ∨ x ∈ kids.labels) ↔ Graph.Branch jt.edges s i x) →
      ∃ f : RF, f.roots = L ∧ f.Fits jt ord s ∧ f.Good jt.edges s ∧ f.labels.Nodup ∧
        ∀ x, x ∈ f.labels ↔ ∃ i ∈ L, Graph.Branch jt.edges s i x
  | [], _, _ => ⟨.nil, rfl, trivial, trivial, List.nodup_nil, by simp [RF.labels]⟩
  | i :: L, hnd, h => by
    obtain ⟨sibs, hr, hf, hg, hn, hl⟩ := rf_of_list hE s L (List.nodup_cons.1 hnd).2
      (fun j hj => h j (List.mem_cons_of_mem _ hj))
    obtain ⟨hlink, kids, hkr, hkf, hkg, hkn, hkl⟩ := h i List.mem_cons_self
    refine ⟨.cons i kids sibs, ?_, ⟨hlink, hkr.symm, hkf, hf⟩, ⟨hlink, hkl, hkg, hg⟩, ?_, ?_⟩
    · simp [RF.roots, hr]
    · simp only [RF.labels]
      rw [← List.cons_append, List.nodup_append]
      refine ⟨hkn, hn, ?_⟩
      rintro x hx y hy rfl
      have h1 := (hkl x).1 (List.mem_cons.1 hx)
      obtain ⟨j, hj, hb⟩ := (hl x).1 hy
      have hne : i ≠ j := by
        rintro rfl
        exact (List.nodup_cons.1 hnd).1 hj
      exact hE.branch_disjoint hlink (h j (List.mem_cons_of_mem _ hj)).1 hne h1 hb
    · intro x
      simp only [RF.labels]
      rw [← List.cons_append, List.mem_append, List.mem_cons, hkl x, hl x]
      simp

theorem rf_branch {jt : JT V} {ord : ℕ → List ℕ} (hE : Graph.Forest jt.edges)
    (hnd : ∀ i, (ord i).Nodup) (hord : ∀ i j, j ∈ ord i ↔ Link jt.edges i j) (W : Finset ℕ)
    (hW : ∀ e ∈ jt.edges, e.1 ∈ W ∧ e.2 ∈ W) :
    ∀ (m s i : ℕ), Link jt.edges s i →
      (∃ B : Finset ℕ, B.card ≤ m ∧ ∀ x, Graph.Branch jt.edges s i x → x ∈ B) →
      ∃ kids : RF, kids.roots = (ord i).filter (· ≠ s) ∧
        kids.Fits jt ord i ∧ kids.Good jt.edges i ∧ (i :: kids.labels).Nodup ∧
        ∀ x, (x = i ∨ x ∈ kids.labels) ↔ Graph.Branch jt.edges s i x
  | 0, s, i, _, ⟨B, hB, hx⟩ => by
    have : i ∈ B := hx i .refl
    rw [Finset.card_eq_zero.1 (Nat.le_zero.1 hB)] at this
    simp at this
  | m + 1, s, i, hsi, ⟨B, hB, hx⟩ => by
    have hsub : ∀ k ∈ (ord i).filter (· ≠ s), Link jt.edges i k ∧ k ≠ s := by
      intro k hk
      rw [List.mem_filter] at hk
      exact ⟨(hord i k).1 hk.1, by simpa using hk.2⟩
    obtain ⟨kids, hr, hf, hg, hn, hl⟩ := rf_of_list (ord := ord) hE i ((ord i).filter (· ≠ s))
      ((hnd i).filter _) (by
        intro k hk
        obtain ⟨hik, hks⟩ := hsub k hk
        refine ⟨hik, rf_branch hE hnd hord W hW m i k hik ⟨B.erase i, ?_, ?_⟩⟩
        · have := Finset.card_erase_of_mem (hx i .refl)
          omega
        · intro x hxb
          refine Finset.mem_erase.2 ⟨?_, hx x (hE.branch_iff.2 (Or.inr ⟨k, hik, hks, hxb⟩))⟩
          rintro rfl
          exact hE.not_branch hik hxb)
    have hl' : ∀ x, (x = i ∨ x ∈ kids.labels) ↔ Graph.Branch jt.edges s i x := by
      intro x
      rw [hE.branch_iff, hl x]
      constructor
      · rintro (h | ⟨k, hk, hb⟩)
        · exact Or.inl h
        · exact Or.inr ⟨k, (hsub k hk).1, (hsub k hk).2, hb⟩
      · rintro (h | ⟨k, hk, hks, hb⟩)
        · exact Or.inl h
        · refine Or.inr ⟨k, ?_, hb⟩
          rw [List.mem_filter]
          exact ⟨(hord i k).2 hk, by simpa using hks⟩
    refine ⟨kids, hr, hf, hg, List.nodup_cons.2 ⟨?_, hn⟩, hl'⟩
    intro hmem
    obtain ⟨k, hk, hb⟩ := (hl i).1 hmem
    exact hE.not_branch (hsub k hk).1 hb

/-- Every start clique and every visiting order of a tree give a rooted forest. -/
theorem exists_rf {jt : JT V} (h : IsJunctionTree jt) {ord : ℕ → List ℕ}
    (hnd : ∀ i, (ord i).Nodup) (hord : ∀ i j, j ∈ ord i ↔ Link jt.edges i j) {r : ℕ}
    (hr : r < jt.cliques.length) :
    ∃ f : RF, ord r = f.roots ∧ f.Fits jt ord r ∧ f.Good jt.edges r ∧ (r :: f.labels).Nodup ∧
      ∀ x, x ∈ r :: f.labels ↔ x < jt.cliques.length := by
  have hE := h.forest
  let W := Finset.range jt.cliques.length
  have hW : ∀ e ∈ jt.edges, e.1 ∈ W ∧ e.2 ∈ W := fun e he =>
    ⟨Finset.mem_range.2 (h.edge_lt e he).1, Finset.mem_range.2 (h.edge_lt e he).2⟩
  have hrange : ∀ {a b}, WConn jt.edges a b → a ∈ W → b ∈ W := by
    intro a b hab ha
    induction hab with
    | refl => exact ha
    | tail _ hl ih =>
      rcases hl with hl | hl
      · exact (hW _ hl).2
      · exact (hW _ hl).1
  obtain ⟨f, hfr, hff, hfg, hfn, hfl⟩ := rf_of_list (ord := ord) hE r (ord r) (hnd r) (by
    intro i hi
    have hri := (hord r i).1 hi
    refine ⟨hri, rf_branch hE hnd hord W hW W.card r i hri ⟨W, le_rfl, ?_⟩⟩
    intro x hx
    have hi' : i ∈ W := by
      rcases hri with h | h
      · exact (hW _ h).2
      · exact (hW _ h).1
    exact hrange (wconn_mono (fun e he => (Graph.mem_cut.1 he).1) hx) hi')
  refine ⟨f, hfr.symm, hff, hfg, List.nodup_cons.2 ⟨?_, hfn⟩, ?_⟩
  · intro hmem
    obtain ⟨k, hk, hb⟩ := (hfl r).1 hmem
    exact hE.not_branch ((hord r k).1 hk) hb
  · intro x
    rw [List.mem_cons, hfl]
    constructor
    · intro hx
      have : WConn jt.edges r x := by
        rw [hE.wconn_iff]
        rcases hx with h | ⟨k, hk, hb⟩
        · exact Or.inl h
        · exact Or.inr ⟨k, (hord r k).1 hk, hb⟩
      exact Finset.mem_range.1 (hrange this (Finset.mem_range.2 hr))
    · intro hx
      rcases hE.wconn_iff.1 (h.connected r x hr hx) with h | ⟨k, hk, hb⟩
      · exact Or.inl h
      · exact Or.inr ⟨k, (hord r k).2 hk, hb⟩

theorem RF.mem_vars {cl : List (Finset V)} {f : RF} {v : V} :
    v ∈ f.vars cl ↔ ∃ i ∈ f.labels, v ∈ clq cl i := by
  induction f with
  | nil => simp [RF.vars, RF.labels]
  | cons i kids sibs ihk ihs =>
    simp only [RF.vars, RF.labels, Finset.mem_union, ihk, ihs, List.mem_cons, List.mem_append]
    constructor
    · rintro ((h | ⟨j, hj, h⟩) | ⟨j, hj, h⟩)
      · exact ⟨i, Or.inl rfl, h⟩
      · exact ⟨j, Or.inr (Or.inl hj), h⟩
      · exact ⟨j, Or.inr (Or.inr hj), h⟩
    · rintro ⟨j, rfl | hj | hj, h⟩
      · exact Or.inl (Or.inl h)
      · exact Or.inl (Or.inr ⟨j, hj, h⟩)
      · exact Or.inr ⟨j, hj, h⟩

theorem label_swap (cl : List (Finset V)) (a b : ℕ) : label cl (a, b) = label cl (b, a) :=
  Finset.inter_comm _ _

theorem clq_lt {cl : List (Finset V)} {v : V} {i : ℕ} (h : v ∈ clq cl i) : i < cl.length := by
  unfold clq at h
  by_contra hc
  simp [List.getD, List.getElem?_eq_none (Nat.le_of_not_lt hc)] at h

/-- A shared variable must be in the separator it crosses. -/
theorem IsJunctionTree.mem_sep {jt : JT V} (h : IsJunctionTree jt) {s i a b : ℕ} {v : V}
    (ha : Graph.Branch jt.edges s i a) (hb : ¬ Graph.Branch jt.edges s i b)
    (hva : v ∈ clq jt.cliques a) (hvb : v ∈ clq jt.cliques b) : v ∈ label jt.cliques (s, i) := by
  by_contra hv
  apply hb
  have := h.running v a b (clq_lt hva) (clq_lt hvb) hva hvb
  refine Relation.ReflTransGen.trans ha (wconn_mono (fun e he => ?_) this)
  rw [List.mem_filter] at he
  rw [Graph.mem_cut]
  refine ⟨he.1, ?_, ?_⟩
  · rintro rfl
    exact hv (by simpa using he.2)
  · rintro rfl
    apply hv
    rw [label_swap]
    simpa using he.2

theorem RF.rip_of_good {jt : JT V} (h : IsJunctionTree jt) : ∀ (f : RF) (s : ℕ) (O : Finset V),
    f.Good jt.edges s → f.labels.Nodup →
    (∀ v ∈ O, ∃ b, b ∉ f.labels ∧ v ∈ clq jt.cliques b) → f.Rip jt.cliques s O
  | .nil, _, _, _, _, _ => trivial
  | .cons i kids sibs, s, O, ⟨_, hbr, hgk, hgs⟩, hnd, hO => by
    simp only [RF.labels] at hnd hO
    rw [← List.cons_append, List.nodup_append, List.nodup_cons] at hnd
    obtain ⟨⟨hik, hkn⟩, hsn, hdis⟩ := hnd
    have hinside : ∀ v ∈ clq jt.cliques i ∪ kids.vars jt.cliques,
        ∃ a, (a = i ∨ a ∈ kids.labels) ∧ v ∈ clq jt.cliques a := by
      intro v hv
      rcases Finset.mem_union.1 hv with hv | hv
      · exact ⟨i, Or.inl rfl, hv⟩
      · obtain ⟨a, ha, hva⟩ := RF.mem_vars.1 hv
        exact ⟨a, Or.inr ha, hva⟩
    have hO' : ∀ v ∈ O, ∃ b, b ≠ i ∧ b ∉ kids.labels ∧ b ∉ sibs.labels ∧
        v ∈ clq jt.cliques b := by
      intro v hv
      obtain ⟨b, hb, hvb⟩ := hO v hv
      simp only [List.mem_cons, List.mem_append, not_or] at hb
      exact ⟨b, hb.1, hb.2.1, hb.2.2, hvb⟩
    have hsib : ∀ v ∈ sibs.vars jt.cliques, ∃ b ∈ sibs.labels, b ≠ i ∧ b ∉ kids.labels ∧
        v ∈ clq jt.cliques b := by
      intro v hv
      obtain ⟨b, hb, hvb⟩ := RF.mem_vars.1 hv
      refine ⟨b, hb, ?_, ?_, hvb⟩
      · rintro rfl
        exact hdis b List.mem_cons_self b hb rfl
      · intro hbk
        exact hdis b (List.mem_cons_of_mem _ hbk) b hb rfl
    refine ⟨?_, RF.rip_of_good h kids i _ hgk hkn ?_, RF.rip_of_good h sibs s _ hgs hsn ?_⟩
    · intro v hv
      rw [Finset.mem_inter] at hv
      obtain ⟨a, ha, hva⟩ := hinside v hv.1
      have hb : ∃ b, ¬ (b = i ∨ b ∈ kids.labels) ∧ v ∈ clq jt.cliques b := by
        rcases Finset.mem_union.1 hv.2 with hvO | hvs
        · obtain ⟨b, h1, h2, _, h4⟩ := hO' v hvO
          exact ⟨b, by tauto, h4⟩
        · obtain ⟨b, _, h2, h3, h4⟩ := hsib v hvs
          exact ⟨b, by tauto, h4⟩
      obtain ⟨b, hb, hvb⟩ := hb
      exact h.mem_sep ((hbr a).1 ha) (fun h' => hb ((hbr b).2 h')) hva hvb
    · intro v hv
      rcases Finset.mem_union.1 hv with hv | hv
      · rcases Finset.mem_union.1 hv with hv | hv
        · obtain ⟨b, _, h2, _, h4⟩ := hO' v hv
          exact ⟨b, h2, h4⟩
        · obtain ⟨b, _, _, h3, h4⟩ := hsib v hv
          exact ⟨b, h3, h4⟩
      · exact ⟨i, hik, hv⟩
    · intro v hv
      rcases Finset.mem_union.1 hv with hv | hv
      · obtain ⟨b, _, _, h3, h4⟩ := hO' v hv
        exact ⟨b, h3, h4⟩
      · obtain ⟨a, ha, hva⟩ := hinside v hv
        refine ⟨a, fun hs => ?_, hva⟩
        exact hdis a (List.mem_cons.2 ha) a hs rfl

/-! ### Greedy insertion -/

theorem mem_combos2 {α : Type} {l : List α} {a b : α} (h : (a, b) ∈ combos2 l) :
    a ∈ l ∧ b ∈ l := by
  induction l with
  | nil => simp [combos2] at h
  | cons x l ih =>
    simp only [combos2, List.mem_append, List.mem_map, Prod.mk.injEq] at h
    rcases h with ⟨c, hc, rfl, rfl⟩ | h
    · exact ⟨List.mem_cons_self, List.mem_cons_of_mem _ hc⟩
    · exact ⟨List.mem_cons_of_mem _ (ih h).1, List.mem_cons_of_mem _ (ih h).2⟩

theorem combos2_complete {α : Type} {l : List α} {a b : α} (ha : a ∈ l) (hb : b ∈ l)
    (hab : a ≠ b) : (a, b) ∈ combos2 l ∨ (b, a) ∈ combos2 l := by
  induction l with
  | nil => simp at ha
  | cons x l ih =>
    simp only [combos2, List.mem_append, List.mem_map, Prod.mk.injEq]
    rcases List.mem_cons.1 ha with rfl | ha'
    · rcases List.mem_cons.1 hb with rfl | hb'
      · exact absurd rfl hab
      · exact Or.inl (Or.inl ⟨b, hb', rfl, rfl⟩)
    · rcases List.mem_cons.1 hb with rfl | hb'
      · exact Or.inr (Or.inl ⟨a, ha', rfl, rfl⟩)
      · exact (ih ha' hb').imp Or.inr Or.inr

theorem mem_sepsets {cl : List (Finset V)} {e : ℕ × ℕ} (h : e ∈ sepsets cl) :
    e.1 < cl.length ∧ e.2 < cl.length ∧ (label cl e).Nonempty := by
  unfold sepsets at h
  rw [List.mem_filter] at h
  have := mem_combos2 (a := e.1) (b := e.2) h.1
  exact ⟨List.mem_range.1 this.1, List.mem_range.1 this.2, by simpa using h.2⟩

theorem sepsets_complete {cl : List (Finset V)} {a b : ℕ} (hab : a ≠ b)
    (h : (label cl (a, b)).Nonempty) : Link (sepsets cl) a b := by
  obtain ⟨v, hv⟩ := h
  have hv' := hv
  rw [label, Finset.mem_inter] at hv'
  have ha : a ∈ List.range cl.length := List.mem_range.2 (clq_lt hv'.1)
  have hb : b ∈ List.range cl.length := List.mem_range.2 (clq_lt hv'.2)
  rcases combos2_complete ha hb hab with h | h
  · left
    unfold sepsets
    rw [List.mem_filter]
    exact ⟨h, by simpa using ⟨v, hv⟩⟩
  · right
    unfold sepsets
    rw [List.mem_filter]
    exact ⟨h, by simpa [label_swap cl b a] using ⟨v, hv⟩⟩

/-- Every inserted separator was, when inserted, one of largest mass among those joining two
different trees. -/
def Greedy (cl : List (Finset V)) : List (ℕ × ℕ) → Prop
  | [] => True
  | e :: E => (e ∈ sepsets cl ∧ ∀ c ∈ sepsets cl, mass cl e < mass cl c → WConn E c.1 c.2) ∧
      Greedy cl E

theorem Greedy.mem {cl : List (Finset V)} {E : List (ℕ × ℕ)} (h : Greedy cl E) :
    ∀ e ∈ E, e ∈ sepsets cl := by
  induction E with
  | nil => simp
  | cons e E ih =>
    intro f hf
    rcases List.mem_cons.1 hf with rfl | hf
    · exact h.1.1
    · exact ih h.2 f hf

theorem Greedy.mass_le {cl : List (Finset V)} {E : List (ℕ × ℕ)} (h : Greedy cl E) {c : ℕ × ℕ}
    (hc : c ∈ sepsets cl) (hn : ¬ WConn E c.1 c.2) : ∀ e ∈ E, mass cl c ≤ mass cl e := by
  induction E with
  | nil => simp
  | cons e E ih =>
    intro f hf
    have hn' : ¬ WConn E c.1 c.2 := fun hw => hn (wconn_mono (fun _ h => List.mem_cons_of_mem _ h) hw)
    rcases List.mem_cons.1 hf with rfl | hf
    · by_contra hlt
      exact hn' (h.1.2 c hc (by omega))
    · exact ih h.2 hn' f hf

theorem Greedy.threshold {cl : List (Finset V)} {E : List (ℕ × ℕ)} (h : Greedy cl E)
    (hF : Graph.Forest E) (t : ℕ) {c : ℕ × ℕ} (hc : c ∈ sepsets cl) (hw : WConn E c.1 c.2)
    (ht : t ≤ mass cl c) : WConn (E.filter fun e => t ≤ mass cl e) c.1 c.2 := by
  induction E with
  | nil => exact hw
  | cons e E ih =>
    by_cases he : t ≤ mass cl e
    · have hall : ∀ f ∈ E, t ≤ mass cl f := fun f hf => he.trans (h.2.mass_le h.1.1 hF.1 f hf)
      have : ((e :: E).filter fun e => t ≤ mass cl e) = e :: E := by
        rw [List.filter_eq_self]
        intro f hf
        rcases List.mem_cons.1 hf with rfl | hf
        · simpa using he
        · simpa using hall f hf
      rw [this]
      exact hw
    · have : ((e :: E).filter fun e => t ≤ mass cl e) = E.filter fun e => t ≤ mass cl e := by
        rw [List.filter_cons_of_neg]
        simpa using he
      rw [this]
      exact ih h.2 hF.2 (h.1.2 c hc (by omega))

/-! ### Weights -/

theorem sum_mass_threshold (cl : List (Finset V)) (L : List (ℕ × ℕ)) (T : ℕ)
    (hT : ∀ e ∈ L, mass cl e ≤ T) :
    (L.map (mass cl)).sum =
      ∑ t ∈ Finset.range T, (L.filter fun e => t + 1 ≤ mass cl e).length := by
  induction L with
  | nil => simp
  | cons e L ih =>
    have h1 : ∀ t, ((e :: L).filter fun e => t + 1 ≤ mass cl e).length =
        (if t + 1 ≤ mass cl e then 1 else 0) + (L.filter fun e => t + 1 ≤ mass cl e).length := by
      intro t
      by_cases h : t + 1 ≤ mass cl e
      · simp [h, Nat.add_comm]
      · simp [h]
    rw [Finset.sum_congr rfl fun t _ => h1 t, Finset.sum_add_distrib, List.map_cons,
      List.sum_cons, ih (fun f hf => hT f (List.mem_cons_of_mem _ hf))]
    congr 1
    have he := hT e List.mem_cons_self
    rw [← Finset.sum_filter, ← Finset.card_eq_sum_ones]
    have : (Finset.range T).filter (fun t => t + 1 ≤ mass cl e) = Finset.range (mass cl e) := by
      ext t
      simp only [Finset.mem_filter, Finset.mem_range]
      omega
    rw [this, Finset.card_range]

theorem sum_mass_vars (cl : List (Finset V)) (L : List (ℕ × ℕ)) (U : Finset V)
    (hU : ∀ e ∈ L, label cl e ⊆ U) :
    (L.map (mass cl)).sum = ∑ v ∈ U, (L.filter fun e => v ∈ label cl e).length := by
  induction L with
  | nil => simp
  | cons e L ih =>
    have h1 : ∀ v, ((e :: L).filter fun e => v ∈ label cl e).length =
        (if v ∈ label cl e then 1 else 0) + (L.filter fun e => v ∈ label cl e).length := by
      intro v
      by_cases h : v ∈ label cl e
      · simp [h, Nat.add_comm]
      · simp [h]
    rw [Finset.sum_congr rfl fun v _ => h1 v, Finset.sum_add_distrib, List.map_cons,
      List.sum_cons, ih (fun f hf => hU f (List.mem_cons_of_mem _ hf))]
    congr 1
    rw [← Finset.sum_filter, ← Finset.card_eq_sum_ones, Finset.filter_mem_eq_inter,
      Finset.inter_eq_right.2 (hU e List.mem_cons_self)]
    rfl

/-- The cliques containing `v`. -/
def holders (cl : List (Finset V)) (v : V) : Finset ℕ :=
  (Finset.range cl.length).filter fun i => v ∈ clq cl i

theorem greedy_max {cl : List (Finset V)} {M J : List (ℕ × ℕ)} (hM : Greedy cl M)
    (hMF : Graph.Forest M)
    (hMc : ∀ i j, i < cl.length → j < cl.length → WConn M i j)
    (hJ : Graph.Forest J) (hJr : ∀ e ∈ J, e.1 < cl.length ∧ e.2 < cl.length) :
    (J.map (mass cl)).sum ≤ (M.map (mass cl)).sum := by
  let T := (J.map (mass cl)).sum + (M.map (mass cl)).sum
  have hT : ∀ (L : List (ℕ × ℕ)), ∀ e ∈ L, mass cl e ≤ (L.map (mass cl)).sum := by
    intro L e he
    exact List.single_le_sum (by simp) _ (List.mem_map_of_mem he)
  rw [sum_mass_threshold cl J T (fun e he => (hT J e he).trans (Nat.le_add_right _ _)),
    sum_mass_threshold cl M T (fun e he => (hT M e he).trans (Nat.le_add_left _ _))]
  apply Finset.sum_le_sum
  intro t _
  let W := Finset.range cl.length
  have hJt := (hJ.sublist (List.filter_sublist (p := fun e => decide (t + 1 ≤ mass cl e)))).length_add_nc
    (W := W) (fun e he => by
      have := hJr e (List.mem_filter.1 he).1
      exact ⟨Finset.mem_range.2 this.1, Finset.mem_range.2 this.2⟩)
  have hMt := (hMF.sublist (List.filter_sublist (p := fun e => decide (t + 1 ≤ mass cl e)))).length_add_nc
    (W := W) (fun e he => by
      have := mem_sepsets (hM.mem e (List.mem_filter.1 he).1)
      exact ⟨Finset.mem_range.2 this.1, Finset.mem_range.2 this.2.1⟩)
  have hnc : nc (M.filter fun e => t + 1 ≤ mass cl e) W ≤
      nc (J.filter fun e => t + 1 ≤ mass cl e) W := by
    apply Graph.nc_mono
    intro a _ b _ hab
    refine wconn_lift (fun e he => ?_) hab
    rw [List.mem_filter] at he
    have hm : t + 1 ≤ mass cl e := by simpa using he.2
    by_cases hee : e.1 = e.2
    · rw [hee]; exact .refl
    have hne : (label cl e).Nonempty := by
      rw [← Finset.card_pos]
      change 0 < mass cl e
      omega
    have hr := hJr e he.1
    rcases sepsets_complete hee hne with h | h
    · exact hM.threshold hMF (t + 1) h (hMc _ _ hr.1 hr.2) hm
    · refine (hM.threshold hMF (t + 1) h (hMc _ _ hr.2 hr.1) ?_).symm
      unfold mass at hm ⊢
      rw [label_swap]
      exact hm
  omega

/-- A greedy spanning tree inherits the running intersection property from any forest that has
enough separators for every variable. -/
theorem greedy_running {cl : List (Finset V)} {M J : List (ℕ × ℕ)} (hM : Greedy cl M)
    (hMF : Graph.Forest M)
    (hMc : ∀ i j, i < cl.length → j < cl.length → WConn M i j)
    (hJ : Graph.Forest J) (hJr : ∀ e ∈ J, e.1 < cl.length ∧ e.2 < cl.length)
    (hJv : ∀ v, (holders cl v).card ≤ (J.filter fun e => v ∈ label cl e).length + 1)
    {v : V} {i j : ℕ} (hi : v ∈ clq cl i) (hj : v ∈ clq cl j) :
    WConn (M.filter fun e => v ∈ label cl e) i j := by
  let U : Finset V := (Finset.range cl.length).biUnion (clq cl)
  have hmemU : ∀ {w k}, w ∈ clq cl k → w ∈ U := fun {w k} h =>
    Finset.mem_biUnion.2 ⟨k, Finset.mem_range.2 (clq_lt h), h⟩
  have hU : ∀ e : ℕ × ℕ, label cl e ⊆ U := fun e w hw => hmemU (Finset.mem_inter.1 hw).1
  have hmass := greedy_max hM hMF hMc hJ hJr
  rw [sum_mass_vars cl J U (fun e _ => hU e), sum_mass_vars cl M U (fun e _ => hU e)] at hmass
  have hforest : ∀ w, (M.filter fun e => w ∈ label cl e).length +
      nc (M.filter fun e => w ∈ label cl e) (holders cl w) = (holders cl w).card := by
    intro w
    refine (hMF.sublist List.filter_sublist).length_add_nc fun e he => ?_
    have hw : w ∈ label cl e := by simpa using (List.mem_filter.1 he).2
    rw [label, Finset.mem_inter] at hw
    simp only [holders, Finset.mem_filter, Finset.mem_range]
    exact ⟨⟨clq_lt hw.1, hw.1⟩, ⟨clq_lt hw.2, hw.2⟩⟩
  have hle : ∀ w ∈ U, (M.filter fun e => w ∈ label cl e).length ≤
      (J.filter fun e => w ∈ label cl e).length := by
    intro w hw
    obtain ⟨k, hk, hwk⟩ := Finset.mem_biUnion.1 hw
    have h1 : 1 ≤ nc (M.filter fun e => w ∈ label cl e) (holders cl w) :=
      Graph.nc_pos ⟨k, by simp only [holders, Finset.mem_filter]; exact ⟨hk, hwk⟩⟩
    have h2 := hforest w
    have h3 := hJv w
    omega
  have heq := (Finset.sum_eq_sum_iff_of_le hle).1 (le_antisymm (Finset.sum_le_sum hle) hmass) v
    (hmemU hi)
  have h1 := hforest v
  have h2 := hJv v
  refine Graph.wconn_of_nc_le_one (W := holders cl v) (by omega) ?_ ?_
  · simp only [holders, Finset.mem_filter, Finset.mem_range]; exact ⟨clq_lt hi, hi⟩
  · simp only [holders, Finset.mem_filter, Finset.mem_range]; exact ⟨clq_lt hj, hj⟩

end

end Verif.BBN
