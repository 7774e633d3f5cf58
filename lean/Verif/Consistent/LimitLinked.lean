import Verif.Consistent.Limit
import Verif.Consistent.Predict
import Verif.Network.Frequencies

/-!
# Without colliders the limit network has the right probabilities for linked nodes
-/

namespace Verif.Consistent

open Verif.BBN Function
open Verif.Graph (EdgeRel Linked Collider NoCycle)

section
set_option linter.unusedSectionVars false
variable {V S : Type} [LinearOrder V] [LinearOrder S] {dom : V → List S} {vs : List V} {par : V → List V} {Q : V → S → List S → ℝ}

theorem massWith_congr {J : (V → S) → ℝ} {x₀ : V → S} {A B : (V → S) → Prop} [DecidablePred A] [DecidablePred B] (h : ∀ x, A x ↔ B x) :
    massWith dom vs J x₀ A = massWith dom vs J x₀ B := by
  unfold massWith
  congr 2
  exact List.filter_congr fun x _ => decide_eq_decide.2 (h x)

theorem massWith_split {u : V} (hu : u ∈ vs) (hd : (dom u).Nodup) (J : (V → S) → ℝ) (x₀ : V → S) (A : (V → S) → Prop) [DecidablePred A] :
    massWith dom vs J x₀ A = ((dom u).map fun s => massWith dom vs J x₀ (fun y => A y ∧ y u = s)).sum := by
  unfold massWith
  rw [sum_filter_key ((worlds dom vs x₀).filter fun x => A x) (fun x => x u) J (dom u) hd
    (fun x hx => (worlds_valid (List.mem_filter.1 hx).1 u).1 hu)]
  refine congrArg List.sum (List.map_congr_left fun c _ => ?_)
  rw [List.filter_filter]
  congr 2
  refine List.filter_congr fun x _ => ?_
  rw [Bool.decide_and, Bool.and_comm]

/-- Two weights of assignments agree on the nodes `l`. -/
def SameOn (dom : V → List S) (vs : List V) (x₀ : V → S) (J K : (V → S) → ℝ) (l : List V) : Prop :=
  ∀ x : V → S, (∀ t ∈ l, x t ∈ dom t) → massWith dom vs J x₀ (fun y => ∀ t ∈ l, y t = x t) = massWith dom vs K x₀ (fun y => ∀ t ∈ l, y t = x t)

theorem SameOn.drop {x₀ : V → S} {J K : (V → S) → ℝ} {u : V} {l : List V} (hu : u ∈ vs) (hd : (dom u).Nodup)
    (h : SameOn dom vs x₀ J K (u :: l)) : SameOn dom vs x₀ J K l := by
  intro x hx
  by_cases hul : u ∈ l
  · have := h x (by
      intro t ht
      rcases List.mem_cons.1 ht with rfl | ht
      · exact hx _ hul
      · exact hx t ht)
    have e : ∀ y : V → S, (∀ t ∈ u :: l, y t = x t) ↔ ∀ t ∈ l, y t = x t := fun y => by
      rw [List.forall_mem_cons]
      exact ⟨fun h => h.2, fun h => ⟨h u hul, h⟩⟩
    rwa [massWith_congr e, massWith_congr e] at this
  · rw [massWith_split hu hd, massWith_split hu hd]
    refine congrArg List.sum (List.map_congr_left fun s hs => ?_)
    have := h (update x u s) (by
      intro t ht
      by_cases e : t = u
      · subst e; rwa [update_self]
      · rw [update_of_ne e]
        exact hx t ((List.mem_cons.1 ht).resolve_left e))
    have e : ∀ y : V → S, (∀ t ∈ u :: l, y t = update x u s t) ↔ (∀ t ∈ l, y t = x t) ∧ y u = s := fun y => by
      rw [List.forall_mem_cons, update_self, and_comm]
      refine and_congr_left fun _ => forall₂_congr fun t ht => ?_
      rw [update_of_ne fun e : t = u => hul (e ▸ ht)]
    rwa [massWith_congr e, massWith_congr e] at this

theorem SameOn.subset {x₀ : V → S} {J K : (V → S) → ℝ} {l l' : List V} (hl' : ∀ u ∈ l', u ∈ vs) (hd : ∀ v ∈ vs, (dom v).Nodup)
    (hl : ∀ u ∈ l, u ∈ l') (h : SameOn dom vs x₀ J K l') : SameOn dom vs x₀ J K l := by
  have h1 : SameOn dom vs x₀ J K (l' ++ l) := by
    intro x hx
    have e : ∀ y : V → S, (∀ t ∈ l' ++ l, y t = x t) ↔ ∀ t ∈ l', y t = x t := fun y => by
      refine ⟨fun h t ht => h t (List.mem_append_left _ ht), fun h t ht => ?_⟩
      rcases List.mem_append.1 ht with ht | ht
      exacts [h t ht, h t (hl t ht)]
    rw [massWith_congr e, massWith_congr e]
    exact h x fun t ht => hx t (List.mem_append_left _ ht)
  clear h hl
  induction l' with
  | nil => exact h1
  | cons u l' ih =>
    exact ih (fun t ht => hl' t (List.mem_cons_of_mem _ ht)) (h1.drop (hl' u List.mem_cons_self) (hd u (hl' u List.mem_cons_self)))

/-- If the graph has no colliders, the limit network agrees with the distribution on all sets of nodes that are linked to each other. -/
theorem limit_linked (h : IsModel dom vs par Q) {J : (V → S) → ℝ} {x₀ : V → S} (hx₀ : ∀ v ∈ vs, x₀ v ∈ dom v) (hJ : IsLimit dom vs par Q J x₀)
    (htot : sumOver dom vs J x₀ = 1) {E : List (V × V)} (hpar : ∀ v ∈ vs, ∀ p, p ∈ par v ↔ (p, v) ∈ E)
    (hac : Graph.Acyclic E) (hcol : ∀ a c b, ¬ Collider (EdgeRel E) a c b) {C : List V} (hC : ∀ u ∈ C, u ∈ vs)
    (hl : ∀ u ∈ C, ∀ w ∈ C, u ≠ w → Linked (EdgeRel E) u w) : SameOn dom vs x₀ (truth vs par Q) J C := by
  set G : Finset (V × V) := E.toFinset with hGdef
  have hG : (fun a b => (a, b) ∈ G) = EdgeRel E := by funext a b; simp [hGdef, EdgeRel]
  have hnc : NoCycle fun a b => (a, b) ∈ G := by rw [hG]; exact hac
  obtain ⟨rank, hrank⟩ := Graph.exists_rank hnc
  have hps : ∀ v ∈ vs, ∀ u, u ∈ Verif.Network.parentSet G v ↔ u ∈ par v := by
    intro v hv u
    rw [Verif.Network.mem_parentSet, hpar v hv u, hGdef, List.mem_toFinset]
  have hnil : SameOn dom vs x₀ (truth vs par Q) J [] := by
    intro x _
    have e : ∀ y : V → S, (∀ t ∈ ([] : List V), y t = x t) ↔ True := fun y => by simp
    rw [massWith_congr e, massWith_congr e, massWith_eq_sumOver, massWith_eq_sumOver]
    simp only [if_true]
    rw [htot, h.total hx₀]
  have key : ∀ C : List V, (∀ u ∈ C, u ∈ vs) → (∀ u ∈ C, ∀ w ∈ C, u ≠ w → Linked (EdgeRel E) u w) →
      (∀ w ∈ C, SameOn dom vs x₀ (truth vs par Q) J (w :: par w)) → SameOn dom vs x₀ (truth vs par Q) J C := by
    intro C hC hl hfam
    by_cases hne : C.toFinset.Nonempty
    · obtain ⟨w, hw, hsub⟩ := Verif.Network.linked_family hrank hne (by
        rw [hG]
        intro a ha b hb
        exact hl a (List.mem_toFinset.1 ha) b (List.mem_toFinset.1 hb))
      rw [List.mem_toFinset] at hw
      refine (hfam w hw).subset ?_ h.states ?_
      · intro u hu
        rcases List.mem_cons.1 hu with rfl | hu
        · exact hC _ hw
        · exact h.parents w (hC w hw) u hu
      · intro u hu
        rcases Finset.mem_insert.1 (hsub (List.mem_toFinset.2 hu)) with rfl | hu
        · exact List.mem_cons_self
        · exact List.mem_cons_of_mem _ ((hps w (hC w hw) u).1 hu)
    · rw [Finset.not_nonempty_iff_eq_empty, List.toFinset_eq_empty_iff] at hne
      rw [hne]
      exact hnil
  have hfam : ∀ v ∈ vs, SameOn dom vs x₀ (truth vs par Q) J (v :: par v) := by
    intro v
    induction hk : rank v using Nat.strong_induction_on generalizing v with
    | _ k ih =>
      intro hv
      have hZ : SameOn dom vs x₀ (truth vs par Q) J (par v) := by
        refine key _ (h.parents v hv) ?_ ?_
        · intro a ha b hb hab
          by_contra hn
          exact hcol a v b ⟨(hpar v hv a).1 ha, (hpar v hv b).1 hb, hab, hn⟩
        · intro w hw
          refine ih (rank w) (hk ▸ hrank w v ?_) w rfl (h.parents v hv w hw)
          rw [hGdef, List.mem_toFinset]
          exact (hpar v hv w).1 hw
      intro x hx
      let z : V → S := fun u => if u ∈ par v then x u else x₀ u
      have hz : ∀ u ∈ vs, z u ∈ dom u := by
        intro u hu
        simp only [z]
        split_ifs with hp
        · exact hx u (List.mem_cons_of_mem _ hp)
        · exact hx₀ u hu
      have hzp : ∀ u ∈ par v, z u = x u := fun u hu => if_pos hu
      have e1 : ∀ y : V → S, (∀ t ∈ v :: par v, y t = x t) ↔ y v = x v ∧ (par v).map y = (par v).map z := fun y => by
        rw [List.forall_mem_cons, List.map_inj_left]
        exact and_congr_right fun _ => forall₂_congr fun t ht => by rw [hzp t ht]
      have e2 : ∀ y : V → S, (par v).map y = (par v).map z ↔ ∀ t ∈ par v, y t = x t := fun y => by
        rw [List.map_inj_left]
        exact forall₂_congr fun t ht => by rw [hzp t ht]
      rw [massWith_congr e1, massWith_congr e1, h.conditional hv (hx v List.mem_cons_self) hx₀ z,
        hJ.cond v hv z hz _ (hx v List.mem_cons_self), massWith_congr e2, massWith_congr e2, hZ x fun t ht => hx t (List.mem_cons_of_mem _ ht)]
  exact key C hC hl fun w hw => hfam w (hC w hw)

end

end Verif.Consistent
