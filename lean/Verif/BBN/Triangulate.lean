import Verif.BBN.Kruskal

/-!
# Triangulation by node elimination

The clusters produced by eliminating the nodes of a graph one by one, in any order, and the
cliques recorded among them.
-/

namespace Verif.BBN
open Verif.Graph (Link WConn wconn_of_mem wconn_mono wconn_lift wconn_cons nc)

variable {V : Type} [LinearOrder V]

/-- A proper undirected graph: distinct nodes, symmetric neighbour sets without loops. -/
structure UG.WF (g : UG V) : Prop where
  nodup : g.nodes.Nodup
  sub : ∀ v ∈ g.nodes, ∀ u ∈ g.nbr v, u ∈ g.nodes
  symm : ∀ v ∈ g.nodes, ∀ u ∈ g.nodes, u ∈ g.nbr v → v ∈ g.nbr u
  irrefl : ∀ v ∈ g.nodes, v ∉ g.nbr v

/-- Fill the cluster of `v` and remove `v`. -/
def UG.elim (g : UG V) (v : V) : UG V := (g.fill (g.cluster v)).remove v

theorem UG.WF.elim_nbr {g : UG V} (h : g.WF) {v u : V} (hv : v ∈ g.nodes) (hu : u ∈ g.nodes)
    (huv : u ≠ v) (w : V) :
    w ∈ (g.elim v).nbr u ↔ w ≠ v ∧ (w ∈ g.nbr u ∨ (u ∈ g.nbr v ∧ w ∈ g.nbr v ∧ w ≠ u)) := by
  have hvv := h.irrefl v hv
  have hfv : (g.fill (g.cluster v)).nbr v = g.nbr v := by
    ext z
    have hin : v ∈ g.cluster v := Finset.mem_insert_self _ _
    simp only [UG.fill, hin, if_true, Finset.mem_union, Finset.mem_erase]
    simp only [UG.cluster, Finset.mem_insert]
    tauto
  simp only [UG.elim, UG.remove, hfv]
  by_cases h1 : u ∈ g.nbr v
  · simp only [h1, if_true, Finset.mem_erase, UG.fill, UG.cluster, Finset.mem_insert, or_true,
      Finset.mem_union, true_and]
    tauto
  · have : u ∉ g.cluster v := by
      simp only [UG.cluster, Finset.mem_insert, not_or]
      exact ⟨huv, h1⟩
    simp only [h1, if_false, UG.fill, this, false_and, or_false]
    constructor
    · intro hw
      refine ⟨?_, hw⟩
      rintro rfl
      exact h1 (h.symm u hu w hv hw)
    · exact fun hw => hw.2

theorem UG.mem_elim_nodes {g : UG V} (h : g.WF) {v u : V} :
    u ∈ (g.elim v).nodes ↔ u ≠ v ∧ u ∈ g.nodes := by
  simp only [UG.elim, UG.remove, UG.fill]
  exact h.nodup.mem_erase_iff

theorem UG.WF.elim {g : UG V} (h : g.WF) {v : V} (hv : v ∈ g.nodes) : (g.elim v).WF where
  nodup := by
    simp only [UG.elim, UG.remove, UG.fill]
    exact h.nodup.erase _
  sub := by
    intro u hu w hw
    rw [UG.mem_elim_nodes h] at hu ⊢
    rw [h.elim_nbr hv hu.2 hu.1] at hw
    refine ⟨hw.1, ?_⟩
    rcases hw.2 with h1 | ⟨_, h1, _⟩
    · exact h.sub u hu.2 w h1
    · exact h.sub v hv w h1
  symm := by
    intro u hu w hw hwu
    rw [UG.mem_elim_nodes h] at hu hw
    rw [h.elim_nbr hv hu.2 hu.1] at hwu
    rw [h.elim_nbr hv hw.2 hw.1]
    refine ⟨hu.1, ?_⟩
    rcases hwu.2 with h1 | ⟨h1, h2, h3⟩
    · exact Or.inl (h.symm u hu.2 w hw.2 h1)
    · exact Or.inr ⟨h2, h1, h3.symm⟩
  irrefl := by
    intro u hu hc
    rw [UG.mem_elim_nodes h] at hu
    rw [h.elim_nbr hv hu.2 hu.1] at hc
    rcases hc.2 with h1 | ⟨_, _, h3⟩
    · exact h.irrefl u hu.2 h1
    · exact h3 rfl

/-- `L` is the list of (eliminated node, its cluster) of some complete elimination of `g`. -/
inductive Elim : UG V → List (V × Finset V) → Prop
  | nil {g} : g.nodes = [] → Elim g []
  | cons {g v L} : v ∈ g.nodes → Elim (g.elim v) L → Elim g ((v, g.cluster v) :: L)

theorem Elim.perm {g : UG V} {L : List (V × Finset V)} (h : Elim g L) :
    (L.map Prod.fst).Perm g.nodes := by
  induction h with
  | nil h => rw [h]; exact List.Perm.refl _
  | cons hv _ ih =>
    rw [List.map_cons]
    refine (ih.cons _).trans ?_
    simp only [UG.elim, UG.remove, UG.fill]
    exact (List.perm_cons_erase hv).symm

theorem Elim.mem_self {g : UG V} {L : List (V × Finset V)} (h : Elim g L) :
    ∀ p ∈ L, p.1 ∈ p.2 := by
  induction h with
  | nil h => simp
  | cons hv _ ih =>
    intro p hp
    rcases List.mem_cons.1 hp with rfl | hp
    · simp [UG.cluster]
    · exact ih p hp

theorem Elim.sub {g : UG V} {L : List (V × Finset V)} (h : Elim g L) (hg : g.WF) :
    ∀ p ∈ L, ∀ u ∈ p.2, u ∈ g.nodes := by
  induction h with
  | nil h => simp
  | cons hv _ ih =>
    intro p hp u hu
    rcases List.mem_cons.1 hp with rfl | hp
    · simp only [UG.cluster, Finset.mem_insert] at hu
      rcases hu with rfl | hu
      · exact hv
      · exact hg.sub _ hv u hu
    · exact ((UG.mem_elim_nodes hg).1 (ih (hg.elim hv) p hp u hu)).2

/-- Every clique of the graph is contained in some elimination cluster. -/
theorem Elim.clique {g : UG V} {L : List (V × Finset V)} (h : Elim g L) (hg : g.WF)
    {Q : Finset V} (hne : Q.Nonempty) (hQ : ∀ u ∈ Q, u ∈ g.nodes)
    (hadj : ∀ u ∈ Q, ∀ w ∈ Q, u ≠ w → w ∈ g.nbr u) : ∃ p ∈ L, Q ⊆ p.2 := by
  induction h with
  | nil h =>
    obtain ⟨u, hu⟩ := hne
    have := hQ u hu
    rw [h] at this
    simp at this
  | @cons g v L hv _ ih =>
    by_cases hvQ : v ∈ Q
    · refine ⟨_, List.mem_cons_self, ?_⟩
      intro u hu
      simp only [UG.cluster, Finset.mem_insert]
      by_cases huv : u = v
      · exact Or.inl huv
      · exact Or.inr (hadj v hvQ u hu (Ne.symm huv))
    · have hne' : ∀ u ∈ Q, u ≠ v := fun u hu => by
        rintro rfl
        exact hvQ hu
      obtain ⟨p, hp, hpQ⟩ := ih (hg.elim hv)
        (fun u hu => (UG.mem_elim_nodes hg).2 ⟨hne' u hu, hQ u hu⟩)
        (fun u hu w hw huw => (hg.elim_nbr hv (hQ u hu) (hne' u hu) w).2
          ⟨hne' w hw, Or.inl (hadj u hu w hw huw)⟩)
      exact ⟨p, List.mem_cons_of_mem _ hp, hpQ⟩

/-- What is left of a cluster without its eliminated node is in a later cluster. -/
theorem Elim.rest {g : UG V} {v : V} {L : List (V × Finset V)} (hg : g.WF) (hv : v ∈ g.nodes)
    (h : Elim (g.elim v) L) (hne : (g.nbr v).Nonempty) : ∃ p ∈ L, g.nbr v ⊆ p.2 := by
  have hnv : ∀ u ∈ g.nbr v, u ≠ v := fun u hu => by
    rintro rfl
    exact hg.irrefl u hv hu
  refine h.clique (hg.elim hv) hne ?_ ?_
  · intro u hu
    exact (UG.mem_elim_nodes hg).2 ⟨hnv u hu, hg.sub v hv u hu⟩
  · intro u hu w hw huw
    exact (hg.elim_nbr hv (hg.sub v hv u hu) (hnv u hu) w).2
      ⟨hnv w hw, Or.inr ⟨hu, hw, huw.symm⟩⟩

/-! ### The recorded cliques -/

/-- The clusters not contained in an earlier recorded one, computed from the front. -/
def maxi : List (Finset V) → List (Finset V)
  | [] => []
  | c :: L => c :: (maxi L).filter fun d => ¬ d ⊆ c

theorem foldl_record (c : Finset V) (L acc : List (Finset V)) :
    L.foldl recordClique (c :: acc.filter fun d => ¬ d ⊆ c) =
      c :: (L.foldl recordClique acc).filter fun d => ¬ d ⊆ c := by
  induction L generalizing acc with
  | nil => rfl
  | cons d L ih =>
    simp only [List.foldl_cons]
    rw [← ih (recordClique acc d)]
    congr 1
    unfold recordClique
    by_cases hdc : d ⊆ c
    · have h1 : (c :: acc.filter fun d => ¬ d ⊆ c).any (fun e => decide (d ⊆ e)) = true := by
        simp [hdc]
      rw [if_pos h1]
      by_cases h2 : acc.any (fun e => decide (d ⊆ e)) = true
      · rw [if_pos h2]
      · rw [if_neg h2]
        simp [List.filter_append, hdc]
    · have h1 : (c :: acc.filter fun d => ¬ d ⊆ c).any (fun e => decide (d ⊆ e)) =
          acc.any (fun e => decide (d ⊆ e)) := by
        rw [Bool.eq_iff_iff]
        simp only [List.any_cons, Bool.or_eq_true, decide_eq_true_eq, List.any_eq_true,
          List.mem_filter]
        constructor
        · rintro (h | ⟨e, ⟨he, _⟩, hde⟩)
          · exact absurd h hdc
          · exact ⟨e, he, hde⟩
        · rintro ⟨e, he, hde⟩
          exact Or.inr ⟨e, ⟨he, fun hec => hdc (hde.trans hec)⟩, hde⟩
      rw [h1]
      split
      · rfl
      · simp [List.filter_append, hdc]

theorem foldl_record_eq (L : List (Finset V)) : L.foldl recordClique [] = maxi L := by
  induction L with
  | nil => rfl
  | cons c L ih =>
    have := foldl_record c L []
    simp only [List.filter_nil] at this
    simp only [List.foldl_cons, maxi, ← ih, ← this]
    rfl

theorem maxi_subset {L : List (Finset V)} : ∀ c ∈ maxi L, c ∈ L := by
  induction L with
  | nil => simp [maxi]
  | cons c L ih =>
    intro d hd
    rcases List.mem_cons.1 hd with rfl | hd
    · exact List.mem_cons_self
    · exact List.mem_cons_of_mem _ (ih d (List.mem_filter.1 hd).1)

theorem maxi_covers {L : List (Finset V)} {c : Finset V} (h : c ∈ L) : ∃ d ∈ maxi L, c ⊆ d := by
  induction L with
  | nil => simp at h
  | cons a L ih =>
    rcases List.mem_cons.1 h with rfl | h
    · exact ⟨c, List.mem_cons_self, Finset.Subset.refl c⟩
    · obtain ⟨d, hd, hcd⟩ := ih h
      by_cases hda : d ⊆ a
      · exact ⟨a, List.mem_cons_self, hcd.trans hda⟩
      · exact ⟨d, List.mem_cons_of_mem _ (List.mem_filter.2 ⟨hd, by simpa using hda⟩), hcd⟩

theorem maxi_nodup {L : List (Finset V)} : (maxi L).Nodup := by
  induction L with
  | nil => exact List.nodup_nil
  | cons c L ih =>
    refine List.nodup_cons.2 ⟨?_, ih.filter _⟩
    intro h
    simpa using (List.mem_filter.1 h).2

/-- The cliques recorded along an elimination. -/
def recorded (L : List (V × Finset V)) : List (Finset V) := maxi (L.map Prod.snd)

theorem Elim.not_mem_recorded {g : UG V} {v : V} {L : List (V × Finset V)} (hg : g.WF)
    (hv : v ∈ g.nodes) (h : Elim (g.elim v) L) : ∀ c ∈ recorded L, v ∉ c := by
  intro c hc hvc
  obtain ⟨p, hp, rfl⟩ := List.mem_map.1 (maxi_subset c hc)
  have := h.sub (hg.elim hv) p hp v hvc
  rw [UG.mem_elim_nodes hg] at this
  exact this.1 rfl

/-- No recorded clique is contained in another one. -/
theorem Elim.antichain {g : UG V} {L : List (V × Finset V)} (h : Elim g L) (hg : g.WF) :
    ∀ c ∈ recorded L, ∀ d ∈ recorded L, c ⊆ d → c = d := by
  induction h with
  | nil => simp [recorded, maxi]
  | @cons g v L hv hL ih =>
    have hn := hL.not_mem_recorded hg hv
    intro c hc d hd hcd
    simp only [recorded, List.map_cons, maxi, List.mem_cons, List.mem_filter,
      decide_eq_true_eq] at hc hd
    rcases hc with rfl | ⟨hc, hcv⟩ <;> rcases hd with rfl | ⟨hd, hdv⟩
    · rfl
    · exact absurd (hcd (by simp [UG.cluster])) (hn d hd)
    · exact absurd hcd hcv
    · exact ih (hg.elim hv) c hc d hd hcd

theorem wconn_isolated {N : Type} {E : List (N × N)} {a b : N}
    (h : ∀ e ∈ E, e.1 ≠ a ∧ e.2 ≠ a) (hab : WConn E a b) : b = a := by
  induction hab with
  | refl => rfl
  | tail _ hl ih =>
    subst ih
    rcases hl with hl | hl
    · exact absurd rfl (h _ hl).1
    · exact absurd rfl (h _ hl).2

theorem length_filter_map {α β : Type} (f : α → β) (p : β → Bool) (l : List α) :
    ((l.map f).filter p).length = (l.filter (p ∘ f)).length := by
  rw [List.filter_map, List.length_map]

/-- There is a forest on the recorded cliques with enough separators for every variable. -/
theorem Elim.exists_forest {g : UG V} {L : List (V × Finset V)} (h : Elim g L) (hg : g.WF) :
    ∃ J : List (Finset V × Finset V), Graph.Forest J ∧
      (∀ e ∈ J, e.1 ∈ recorded L ∧ e.2 ∈ recorded L) ∧
      ∀ u, ((recorded L).filter fun c => u ∈ c).length ≤
        (J.filter fun e => u ∈ e.1 ∩ e.2).length + 1 := by
  induction h with
  | nil => exact ⟨[], trivial, by simp, by simp [recorded, maxi]⟩
  | @cons g v L hv hL ih =>
    obtain ⟨J, hJ, hJr, hJv⟩ := ih (hg.elim hv)
    have hn := hL.not_mem_recorded hg hv
    have hanti := hL.antichain (hg.elim hv)
    have hvv := hg.irrefl v hv
    have hrec : recorded ((v, g.cluster v) :: L) =
        g.cluster v :: (recorded L).filter fun d => ¬ d ⊆ g.cluster v := rfl
    have hCnot : g.cluster v ∉ recorded L := fun hc => hn _ hc (by simp [UG.cluster])
    have hvcount : ∀ (T : List (Finset V)), (∀ c ∈ T, v ∉ c) →
        (T.filter fun c => v ∈ c).length = 0 := by
      intro T hT
      rw [List.length_eq_zero_iff, List.filter_eq_nil_iff]
      intro c hc
      simpa using hT c hc
    have hsubB : ∀ d ∈ recorded L, d ⊆ g.cluster v → d ⊆ g.nbr v := by
      intro d hd hdc u hu
      have := hdc hu
      simp only [UG.cluster, Finset.mem_insert] at this
      rcases this with rfl | h
      · exact absurd hu (hn d hd)
      · exact h
    have hnonempty : ∀ d ∈ recorded L, d.Nonempty := by
      intro d hd
      obtain ⟨p, hp, rfl⟩ := List.mem_map.1 (maxi_subset d hd)
      exact ⟨p.1, hL.mem_self p hp⟩
    by_cases hBT : g.nbr v ∈ recorded L
    · -- the rest of the cluster is a recorded clique: it is replaced
      let f : Finset V → Finset V := fun x => if x = g.nbr v then g.cluster v else x
      have hfilter : ((recorded L).filter fun d => ¬ d ⊆ g.cluster v) =
          (recorded L).filter fun d => d ≠ g.nbr v := by
        apply List.filter_congr
        intro d hd
        rw [decide_eq_decide]
        refine not_congr ⟨fun h => ?_, ?_⟩
        · exact hanti d hd _ hBT (hsubB d hd h)
        · rintro rfl
          exact Finset.subset_insert _ _
      have hinj : Set.InjOn f {c | c ∈ recorded L} := by
        intro a ha b hb hab
        simp only [f] at hab
        split at hab <;> split at hab
        · rename_i h1 h2; rw [h1, h2]
        · exact absurd (hab ▸ hb) hCnot
        · exact absurd (hab ▸ ha) hCnot
        · exact hab
      have hfmem : ∀ a ∈ recorded L, f a ∈ recorded ((v, g.cluster v) :: L) := by
        intro a ha
        rw [hrec, hfilter]
        simp only [f]
        split
        · exact List.mem_cons_self
        · rename_i hne
          exact List.mem_cons_of_mem _ (List.mem_filter.2 ⟨ha, by simpa using hne⟩)
      have hfu : ∀ a u, u ≠ v → (u ∈ f a ↔ u ∈ a) := by
        intro a u hu
        simp only [f]
        split
        · rename_i h1; rw [h1]; simp [UG.cluster, hu]
        · rfl
      refine ⟨J.map (Prod.map f f), hJ.map (A := {c | c ∈ recorded L}) hJr hinj, ?_, ?_⟩
      · intro e he
        obtain ⟨e', he', rfl⟩ := List.mem_map.1 he
        exact ⟨hfmem _ (hJr e' he').1, hfmem _ (hJr e' he').2⟩
      · intro u
        rw [length_filter_map]
        by_cases huv : u = v
        · subst huv
          rw [hrec, List.filter_cons]
          have := hvcount ((recorded L).filter fun d => ¬ d ⊆ g.cluster u)
            (fun c hc => hn c (List.mem_filter.1 hc).1)
          split
          · rw [List.length_cons, this]; omega
          · rw [this]; omega
        · have h1 : (J.filter ((fun e : Finset V × Finset V => decide (u ∈ e.1 ∩ e.2)) ∘
              Prod.map f f)) = J.filter fun e => u ∈ e.1 ∩ e.2 := by
            apply List.filter_congr
            intro e _
            simp only [Function.comp, Prod.map, Finset.mem_inter, hfu _ u huv]
          have h2 : ((recorded ((v, g.cluster v) :: L)).filter fun c => u ∈ c).length =
              ((recorded L).filter fun c => u ∈ c).length := by
            have hp : (recorded L).Perm (g.nbr v ::
                (recorded L).filter fun d => d ≠ g.nbr v) := by
              have hnd : (recorded L).Nodup := maxi_nodup
              have h4 := List.perm_cons_erase hBT
              rw [hnd.erase_eq_filter] at h4
              have h5 : ((recorded L).filter fun x => x != g.nbr v) =
                  (recorded L).filter fun d => d ≠ g.nbr v := by
                apply List.filter_congr
                intro d _
                rw [Bool.eq_iff_iff]
                simp
              rw [h5] at h4
              exact h4
            have h3 := (hp.filter fun c => decide (u ∈ c)).length_eq
            rw [h3, hrec, hfilter, List.filter_cons, List.filter_cons]
            have : (u ∈ g.cluster v) ↔ u ∈ g.nbr v := by simp [UG.cluster, huv]
            simp only [this]
            split <;> simp
          rw [h1, h2]
          exact hJv u
    · have hfilter : ((recorded L).filter fun d => ¬ d ⊆ g.cluster v) = recorded L := by
        rw [List.filter_eq_self]
        intro d hd
        rw [decide_eq_true_eq]
        intro hdc
        have hdB := hsubB d hd hdc
        obtain ⟨p, hp, hpB⟩ := hL.rest hg hv ((hnonempty d hd).mono hdB)
        obtain ⟨M, hM, hpM⟩ := maxi_covers (List.mem_map_of_mem (f := Prod.snd) hp)
        have h1 : d = M := hanti d hd M hM (hdB.trans (hpB.trans hpM))
        have h2 : g.nbr v = d := Finset.Subset.antisymm (h1 ▸ hpB.trans hpM) hdB
        exact hBT (h2 ▸ hd)
      by_cases hB : (g.nbr v).Nonempty
      · obtain ⟨p, hp, hpB⟩ := hL.rest hg hv hB
        obtain ⟨M, hM, hpM⟩ := maxi_covers (List.mem_map_of_mem (f := Prod.snd) hp)
        have hBM : g.nbr v ⊆ M := hpB.trans hpM
        have hM' : M ∈ recorded L := hM
        refine ⟨(g.cluster v, M) :: J, ⟨?_, hJ⟩, ?_, ?_⟩
        · intro hw
          have hMC : M = g.cluster v := wconn_isolated (fun e he => ⟨?_, ?_⟩) hw
          · exact hCnot (hMC ▸ hM')
          · intro (hc : e.1 = g.cluster v)
            exact hCnot (hc ▸ (hJr e he).1)
          · intro (hc : e.2 = g.cluster v)
            exact hCnot (hc ▸ (hJr e he).2)
        · intro e he
          rw [hrec, hfilter]
          rcases List.mem_cons.1 he with rfl | he
          · exact ⟨List.mem_cons_self, List.mem_cons_of_mem _ hM'⟩
          · exact ⟨List.mem_cons_of_mem _ (hJr e he).1, List.mem_cons_of_mem _ (hJr e he).2⟩
        · intro u
          rw [hrec, hfilter]
          by_cases huv : u = v
          · subst huv
            rw [List.filter_cons]
            have := hvcount (recorded L) hn
            split
            · rw [List.length_cons, this]; omega
            · rw [this]; omega
          · have := hJv u
            by_cases huB : u ∈ g.nbr v
            · rw [List.filter_cons_of_pos (by simp [UG.cluster, huB]),
                List.filter_cons_of_pos (by simp [UG.cluster, huB, hBM huB])]
              simp only [List.length_cons]
              omega
            · rw [List.filter_cons_of_neg (by simp [UG.cluster, huv, huB]),
                List.filter_cons_of_neg (by simp [UG.cluster, huv, huB])]
              exact this
      · refine ⟨J, hJ, ?_, ?_⟩
        · intro e he
          rw [hrec, hfilter]
          exact ⟨List.mem_cons_of_mem _ (hJr e he).1, List.mem_cons_of_mem _ (hJr e he).2⟩
        · intro u
          rw [hrec, hfilter]
          by_cases huv : u = v
          · subst huv
            rw [List.filter_cons]
            have := hvcount (recorded L) hn
            split
            · rw [List.length_cons, this]; omega
            · rw [this]; omega
          · have hu : u ∉ g.cluster v := by
              rw [Finset.not_nonempty_iff_eq_empty] at hB
              simp [UG.cluster, hB, huv]
            rw [List.filter_cons_of_neg (by simpa using hu)]
            exact hJv u

/-! ### From cliques to their indices -/

theorem clq_idxOf {T : List (Finset V)} {c : Finset V} (h : c ∈ T) : clq T (T.idxOf c) = c := by
  unfold clq
  rw [List.getD_eq_getElem?_getD, List.getElem?_eq_getElem (List.idxOf_lt_length_of_mem h)]
  simp

theorem clq_mem {T : List (Finset V)} {i : ℕ} (h : i < T.length) : clq T i ∈ T := by
  unfold clq
  rw [List.getD_eq_getElem?_getD, List.getElem?_eq_getElem h]
  simp

theorem map_clq_range (T : List (Finset V)) : (List.range T.length).map (clq T) = T := by
  apply List.ext_getElem
  · simp
  · intro i h1 h2
    simp [clq, List.getElem?_eq_getElem h2]

theorem holders_card (T : List (Finset V)) (v : V) :
    (holders T v).card = (T.filter fun c => v ∈ c).length := by
  conv_rhs => rw [← map_clq_range T]
  rw [length_filter_map]
  unfold holders
  rfl

/-- The forest of `Elim.exists_forest` on clique indices. -/
theorem Elim.exists_index_forest {g : UG V} {L : List (V × Finset V)} (h : Elim g L)
    (hg : g.WF) : ∃ J : List (ℕ × ℕ), Graph.Forest J ∧
      (∀ e ∈ J, e.1 < (recorded L).length ∧ e.2 < (recorded L).length) ∧
      ∀ v, (holders (recorded L) v).card ≤
        (J.filter fun e => v ∈ label (recorded L) e).length + 1 := by
  obtain ⟨J, hJ, hJr, hJv⟩ := h.exists_forest hg
  let f := (recorded L).idxOf
  have hinj : Set.InjOn f {c | c ∈ recorded L} := by
    intro a ha b hb hab
    have h1 := clq_idxOf (T := recorded L) ha
    have h2 := clq_idxOf (T := recorded L) hb
    rw [← h1, ← h2]
    simp only [f] at hab
    rw [hab]
  refine ⟨J.map (Prod.map f f), hJ.map (A := {c | c ∈ recorded L}) hJr hinj, ?_, ?_⟩
  · intro e he
    obtain ⟨e', he', rfl⟩ := List.mem_map.1 he
    exact ⟨List.idxOf_lt_length_of_mem (hJr e' he').1, List.idxOf_lt_length_of_mem (hJr e' he').2⟩
  · intro v
    rw [holders_card, length_filter_map]
    refine (hJv v).trans (Nat.add_le_add_right (le_of_eq ?_) 1)
    congr 1
    apply List.filter_congr
    intro e he
    have := hJr e he
    simp only [Function.comp, Prod.map, label, f, clq_idxOf this.1, clq_idxOf this.2]

/-! ### Connectivity -/

/-- Reachability along neighbours. -/
def UG.Reach (g : UG V) : V → V → Prop := Relation.ReflTransGen fun u w => w ∈ g.nbr u

/-- If the graph is connected, so are its cliques. -/
theorem Elim.cliques_connected {g : UG V} {L : List (V × Finset V)} (h : Elim g L) (hg : g.WF)
    (hc : ∀ u ∈ g.nodes, ∀ w ∈ g.nodes, g.Reach u w) {i j : ℕ} (hi : i < (recorded L).length)
    (hj : j < (recorded L).length) : WConn (sepsets (recorded L)) i j := by
  have hex : ∀ k, k < (recorded L).length → ∃ u ∈ clq (recorded L) k, u ∈ g.nodes := by
    intro k hk
    obtain ⟨p, hp, hpk⟩ := List.mem_map.1 (maxi_subset _ (clq_mem hk))
    have := h.mem_self p hp
    refine ⟨p.1, hpk ▸ this, h.sub hg p hp _ this⟩
  obtain ⟨u, hu, hun⟩ := hex i hi
  obtain ⟨w, hw, hwn⟩ := hex j hj
  have hshare : ∀ {a b z}, z ∈ clq (recorded L) a → z ∈ clq (recorded L) b →
      WConn (sepsets (recorded L)) a b := by
    intro a b z ha hb
    by_cases hab : a = b
    · rw [hab]; exact .refl
    · exact Relation.ReflTransGen.single
        (sepsets_complete hab ⟨z, Finset.mem_inter.2 ⟨ha, hb⟩⟩)
  have key : ∀ z, g.Reach u z → ∀ k, z ∈ clq (recorded L) k →
      WConn (sepsets (recorded L)) i k := by
    intro z hz
    induction hz with
    | refl => intro k hk; exact hshare hu hk
    | @tail y z hy hyz ih =>
      intro k hk
      have hyn : y ∈ g.nodes := by
        clear ih hyz
        induction hy with
        | refl => exact hun
        | tail _ hl ih => exact hg.sub _ ih _ hl
      have hzn := hg.sub y hyn z hyz
      have hzy : z ≠ y := by
        rintro rfl
        exact hg.irrefl z hyn hyz
      obtain ⟨p, hp, hQ⟩ := h.clique hg (Q := {y, z}) ⟨y, by simp⟩
        (by
          intro a ha
          simp only [Finset.mem_insert, Finset.mem_singleton] at ha
          rcases ha with rfl | rfl
          · exact hyn
          · exact hzn)
        (by
          intro a ha b hb hab
          simp only [Finset.mem_insert, Finset.mem_singleton] at ha hb
          rcases ha with rfl | rfl <;> rcases hb with rfl | rfl
          · exact absurd rfl hab
          · exact hyz
          · exact hg.symm _ hyn _ hzn hyz
          · exact absurd rfl hab)
      obtain ⟨d, hd, hpd⟩ := maxi_covers (List.mem_map_of_mem (f := Prod.snd) hp)
      have hd' : d ∈ recorded L := hd
      have hyd : y ∈ clq (recorded L) ((recorded L).idxOf d) := by
        rw [clq_idxOf hd']; exact hpd (hQ (by simp))
      have hzd : z ∈ clq (recorded L) ((recorded L).idxOf d) := by
        rw [clq_idxOf hd']; exact hpd (hQ (by simp))
      exact (ih _ hyd).trans (hshare hzd hk)
  exact key w (hc u hun w hwn) j hw

theorem UG.WF.elim_reach {g : UG V} (hg : g.WF) {v : V} (hv : v ∈ g.nodes) {u w : V}
    (hu : u ∈ (g.elim v).nodes) (h : (g.elim v).Reach u w) : g.Reach u w := by
  have hboth : g.Reach u w ∧ w ∈ (g.elim v).nodes := by
    induction h with
    | refl => exact ⟨.refl, hu⟩
    | @tail y z _ hl ih =>
      have hy := (UG.mem_elim_nodes hg).1 ih.2
      refine ⟨?_, (hg.elim hv).sub _ ih.2 _ hl⟩
      rcases ((hg.elim_nbr hv hy.2 hy.1 z).1 hl).2 with h1 | ⟨h1, h2, _⟩
      · exact ih.1.tail h1
      · exact (ih.1.tail (hg.symm v hv y hy.2 h1)).tail h2
  exact hboth.1

/-- The variables of a cluster are connected in the graph. -/
theorem Elim.cluster_reach {g : UG V} {L : List (V × Finset V)} (h : Elim g L) (hg : g.WF) :
    ∀ p ∈ L, ∀ u ∈ p.2, ∀ w ∈ p.2, g.Reach u w := by
  induction h with
  | nil => simp
  | @cons g v L hv hL ih =>
    intro p hp u hu w hw
    rcases List.mem_cons.1 hp with rfl | hp
    · simp only [UG.cluster, Finset.mem_insert] at hu hw
      have h1 : g.Reach u v := by
        rcases hu with rfl | hu
        · exact .refl
        · exact .single (hg.symm v hv u (hg.sub v hv u hu) hu)
      have h2 : g.Reach v w := by
        rcases hw with rfl | hw
        · exact .refl
        · exact .single hw
      exact h1.trans h2
    · exact hg.elim_reach hv (hL.sub (hg.elim hv) p hp u hu) (ih (hg.elim hv) p hp u hu w hw)

/-- If the cliques hang together, the graph is connected. -/
theorem Elim.connected_of_cliques {g : UG V} {L : List (V × Finset V)} (h : Elim g L)
    (hg : g.WF) (hc : ∀ i j, i < (recorded L).length → j < (recorded L).length →
      WConn (sepsets (recorded L)) i j) : ∀ u ∈ g.nodes, ∀ w ∈ g.nodes, g.Reach u w := by
  have hin : ∀ u ∈ g.nodes, ∃ i, u ∈ clq (recorded L) i := by
    intro u hu
    obtain ⟨p, hp, hpu⟩ := List.mem_map.1 (h.perm.mem_iff.2 hu)
    obtain ⟨d, hd, hpd⟩ := maxi_covers (List.mem_map_of_mem (f := Prod.snd) hp)
    refine ⟨(recorded L).idxOf d, ?_⟩
    rw [clq_idxOf (T := recorded L) hd]
    exact hpd (hpu ▸ h.mem_self p hp)
  have hreach : ∀ i, ∀ a ∈ clq (recorded L) i, ∀ b ∈ clq (recorded L) i, g.Reach a b := by
    intro i a ha b hb
    obtain ⟨p, hp, hpi⟩ := List.mem_map.1 (maxi_subset _ (clq_mem (clq_lt ha)))
    rw [show clq (recorded L) i = p.2 from hpi.symm] at ha hb
    exact h.cluster_reach hg p hp a ha b hb
  intro u hu w hw
  obtain ⟨i, hi⟩ := hin u hu
  obtain ⟨j, hj⟩ := hin w hw
  have key : ∀ k, WConn (sepsets (recorded L)) i k → ∀ z ∈ clq (recorded L) k, g.Reach u z := by
    intro k hk
    induction hk with
    | refl => intro z hz; exact hreach i u hi z hz
    | @tail y k _ hl ih =>
      intro z hz
      have hlab : ∃ x, x ∈ clq (recorded L) y ∧ x ∈ clq (recorded L) k := by
        rcases hl with hl | hl
        · obtain ⟨x, hx⟩ := (mem_sepsets hl).2.2
          exact ⟨x, Finset.mem_inter.1 hx⟩
        · obtain ⟨x, hx⟩ := (mem_sepsets hl).2.2
          exact ⟨x, (Finset.mem_inter.1 hx).symm⟩
      obtain ⟨x, hxy, hxk⟩ := hlab
      exact (ih x hxy).trans (hreach k x hxk z hz)
  exact key j (hc i j (clq_lt hi) (clq_lt hj)) w hj

/-! ### The loop of `triangulate` is an elimination -/

theorem pickMin_mem {prio : V → ℕ} : ∀ {l : List V} {v : V}, pickMin prio l = some v → v ∈ l
  | [], _, h => by simp [pickMin] at h
  | a :: l, v, h => by
    simp only [pickMin] at h
    split at h
    · cases h; exact List.mem_cons_self
    · rename_i w hw
      split at h
      · cases h; exact List.mem_cons_self
      · cases h; exact List.mem_cons_of_mem _ (pickMin_mem hw)

theorem pickMin_none {prio : V → ℕ} {l : List V} : pickMin prio l = none ↔ l = [] := by
  cases l with
  | nil => simp [pickMin]
  | cons a l =>
    simp only [pickMin, reduceCtorEq, iff_false]
    split
    · simp
    · split <;> simp

theorem triLoop_elim (prio : UG V → V → ℕ) : ∀ (fuel : ℕ) (st : TriState V),
    st.rem.WF → st.rem.nodes.length ≤ fuel →
    ∃ L, Elim st.rem L ∧ (triLoop prio fuel st).order = st.order ++ L.map Prod.fst ∧
      (triLoop prio fuel st).cliques = (L.map Prod.snd).foldl recordClique st.cliques ∧
      (triLoop prio fuel st).gm = L.foldl (fun g p => g.fill p.2) st.gm ∧
      (triLoop prio fuel st).rem.nodes = []
  | 0, st, _, hf => by
    have h0 : st.rem.nodes = [] := List.length_eq_zero_iff.1 (Nat.le_zero.1 hf)
    exact ⟨[], .nil h0, by simp [triLoop], by simp [triLoop], by simp [triLoop],
      by simp [triLoop, h0]⟩
  | fuel + 1, st, hg, hf => by
    match hp : pickMin (prio st.rem) st.rem.nodes with
    | none =>
      have h0 := pickMin_none.1 hp
      exact ⟨[], .nil h0, by simp [triLoop, hp], by simp [triLoop, hp], by simp [triLoop, hp],
        by simp only [triLoop, hp]; exact h0⟩
    | some v =>
      have hv := pickMin_mem hp
      have hlen : (triStep st v).rem.nodes.length ≤ fuel := by
        change (st.rem.nodes.erase v).length ≤ fuel
        rw [List.length_erase_of_mem hv]
        omega
      obtain ⟨L, h1, h2, h3, h4, h5⟩ := triLoop_elim prio fuel (triStep st v) (hg.elim hv) hlen
      have heq : triLoop prio (fuel + 1) st = triLoop prio fuel (triStep st v) := by
        simp only [triLoop, hp]
      refine ⟨(v, st.rem.cluster v) :: L, .cons hv h1, ?_, ?_, ?_, ?_⟩
      · rw [heq, h2]; simp [triStep]
      · rw [heq, h3]; simp [triStep]
      · rw [heq, h4]; simp [triStep]
      · rw [heq, h5]

theorem triangulate_elim (prio : UG V → V → ℕ) {g : UG V} (hg : g.WF) :
    ∃ L, Elim g L ∧ (triangulate prio g).order = L.map Prod.fst ∧
      (triangulate prio g).cliques = recorded L ∧
      (triangulate prio g).gm = L.foldl (fun g p => g.fill p.2) g ∧
      (triangulate prio g).rem.nodes = [] := by
  obtain ⟨L, h1, h2, h3, h4, h5⟩ := triLoop_elim prio g.nodes.length ⟨g, g, [], []⟩ hg le_rfl
  refine ⟨L, h1, by simpa [triangulate] using h2, ?_, h4, h5⟩
  rw [show (triangulate prio g).cliques = _ from h3]
  exact foldl_record_eq _

/-! ### The filled graph -/

theorem mem_fillAll (L : List (V × Finset V)) (g : UG V) (u w : V) :
    w ∈ (L.foldl (fun g p => g.fill p.2) g).nbr u ↔
      w ∈ g.nbr u ∨ ∃ p ∈ L, u ∈ p.2 ∧ w ∈ p.2 ∧ w ≠ u := by
  induction L generalizing g with
  | nil => simp
  | cons p L ih =>
    rw [List.foldl_cons, ih]
    have : w ∈ (g.fill p.2).nbr u ↔ w ∈ g.nbr u ∨ (u ∈ p.2 ∧ w ∈ p.2 ∧ w ≠ u) := by
      simp only [UG.fill]
      split
      · rename_i hu
        simp only [Finset.mem_union, Finset.mem_erase, hu, true_and]
        tauto
      · rename_i hu
        simp [hu]
    rw [this]
    simp only [List.mem_cons, exists_eq_or_imp]
    tauto

/-- After elimination, the later neighbours of a node in the filled graph are its cluster. -/
theorem Elim.later {g : UG V} {L : List (V × Finset V)} (h : Elim g L) (hg : g.WF) :
    ∀ L₁ p L₂, L = L₁ ++ p :: L₂ → ∀ w ∈ L₂.map Prod.fst,
      w ∈ (L.foldl (fun g p => g.fill p.2) g).nbr p.1 → w ∈ p.2 := by
  induction h with
  | nil => intro L₁ p L₂ h; simp at h
  | @cons g v L hv hL ih =>
    intro L₁ p L₂ heq w hw hwn
    rw [mem_fillAll] at hwn
    cases L₁ with
    | nil =>
      simp only [List.nil_append, List.cons.injEq] at heq
      obtain ⟨rfl, rfl⟩ := heq
      simp only at hwn ⊢
      rcases hwn with h1 | ⟨q, hq, hvq, hwq, _⟩
      · simp [UG.cluster, h1]
      · rcases List.mem_cons.1 hq with rfl | hq
        · exact hwq
        · have := hL.sub (hg.elim hv) q hq v hvq
          rw [UG.mem_elim_nodes hg] at this
          exact absurd rfl this.1
    | cons q L₁ =>
      simp only [List.cons_append, List.cons.injEq] at heq
      obtain ⟨rfl, rfl⟩ := heq
      refine ih (hg.elim hv) L₁ p L₂ rfl w hw ?_
      have hpn : p.1 ∈ (g.elim v).nodes := hL.perm.mem_iff.1 (by simp)
      have hwn' : w ∈ (g.elim v).nodes := hL.perm.mem_iff.1 (by
        rw [List.map_append, List.map_cons]
        exact List.mem_append_right _ (List.mem_cons_of_mem _ hw))
      rw [UG.mem_elim_nodes hg] at hpn hwn'
      rw [mem_fillAll, hg.elim_nbr hv hpn.2 hpn.1]
      rcases hwn with h1 | ⟨q, hq, h1, h2, h3⟩
      · exact Or.inl ⟨hwn'.1, Or.inl h1⟩
      · rcases List.mem_cons.1 hq with rfl | hq
        · simp only [UG.cluster, Finset.mem_insert] at h1 h2
          exact Or.inl ⟨hwn'.1, Or.inr ⟨h1.resolve_left hpn.1, h2.resolve_left hwn'.1, h3⟩⟩
        · exact Or.inr ⟨q, hq, h1, h2, h3⟩

end Verif.BBN
