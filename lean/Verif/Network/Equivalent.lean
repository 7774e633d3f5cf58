import Mathlib.Algebra.BigOperators.Group.Finset.Basic
import Mathlib.Algebra.BigOperators.GroupWithZero.Finset
import Verif.Graph.Equivalent
import Verif.Network.Rename
import Verif.BBN.Backdoor

/-!
# C145: Markov equivalent structures give the same answers
-/

namespace Verif.Network

open Verif.BBN (Frame Fitted netNodes cpdsOf domOf SameWorld)
open Verif.Graph (Linked Collider Equivalent NoCycle Covered Turned EdgeRel)
open Function

section
variable {V S K : Type} [LinearOrder V] [LinearOrder S] [Field K]

/-- The rows in which all nodes have known states, and those of `T` the states in `x`. -/
def cell {K' : Type} (net : Net V S K') (df : DF V S) (T : Finset V) (x : V → S) : ℕ :=
  df.rows.countP fun r => Known net r ∧ ∀ t ∈ T, r t = some (x t)

/-- The parents of a node. -/
def parentSet (G : Finset (V × V)) (v : V) : Finset V := (G.filter fun e => e.2 = v).image Prod.fst

/-- The estimated probability of the state of `v`, if `T` are its parents. -/
def factor {K' : Type} (a : FitArgs K) (net : Net V S K') (df : DF V S) (x : V → S) (v : V) (T : Finset V) : K :=
  estimate a (statesOf net v) (∏ t ∈ T, (statesOf net t).length)
    (fun s => df.rows.countP fun r => Known net r ∧ r v = some s ∧ ∀ t ∈ T, r t = some (x t)) (x v)

omit [LinearOrder S] in
theorem mem_parentSet {G : Finset (V × V)} {u v : V} : u ∈ parentSet G v ↔ (u, v) ∈ G := by
  unfold parentSet
  rw [Finset.mem_image]
  constructor
  · rintro ⟨⟨a, b⟩, h, rfl⟩
    obtain ⟨h1, h2⟩ := Finset.mem_filter.1 h
    change b = v at h2
    rw [← h2]
    exact h1
  · intro h
    exact ⟨(u, v), Finset.mem_filter.2 ⟨h, rfl⟩, rfl⟩

theorem sum_indicator {ks : List S} (hks : ks.Nodup) {s : S} (hs : s ∈ ks) : (ks.map fun i => if s = i then 1 else 0).sum = 1 := by
  induction ks with
  | nil => simp at hs
  | cons k ks ih =>
    obtain ⟨h1, h2⟩ := List.nodup_cons.1 hks
    rw [List.map_cons, List.sum_cons]
    rcases List.mem_cons.1 hs with rfl | hs
    · have h0 : (ks.map fun i => if s = i then 1 else 0).sum = 0 := by
        apply List.sum_eq_zero
        intro i hi
        obtain ⟨t, ht, rfl⟩ := List.mem_map.1 hi
        exact if_neg fun e : s = t => h1 (e ▸ ht)
      rw [if_pos rfl, h0]
    · rw [if_neg (fun e : s = k => h1 (e ▸ hs)), ih h2 hs]

theorem sumOver_states {α : Type} [AddCommMonoid α] {dom dom₂ : V → List S} {vs : List V} (h : ∀ v ∈ vs, (dom₂ v).Perm (dom v))
    (g : (V → S) → α) (x : V → S) : BBN.sumOver dom₂ vs g x = BBN.sumOver dom vs g x := by
  induction vs generalizing x with
  | nil => rfl
  | cons v vs ih =>
    rw [BBN.sumOver, BBN.sumOver, ((h v List.mem_cons_self).map _).sum_eq]
    congr 1
    exact List.map_congr_left fun s _ => ih (fun u hu => h u (List.mem_cons_of_mem _ hu)) _

theorem sum_countP {α : Type} {ks : List S} (hks : ks.Nodup) (rows : List α) (p : α → Prop) [DecidablePred p] (q : α → Option S)
    (hq : ∀ r ∈ rows, p r → ∃ s ∈ ks, q r = some s) :
    (ks.map fun s => rows.countP fun r => p r ∧ q r = some s).sum = rows.countP fun r => p r := by
  induction rows with
  | nil => simp
  | cons r rows ih =>
    have ih := ih fun r hr => hq r (List.mem_cons_of_mem _ hr)
    simp only [List.countP_cons, List.sum_map_add, ih]
    congr 1
    by_cases hp : p r
    · obtain ⟨s, hs, e⟩ := hq r List.mem_cons_self hp
      simp only [hp, e, true_and, Option.some.injEq, decide_true, if_true, decide_eq_true_eq]
      exact sum_indicator hks hs
    · simp [hp]

variable {K' : Type} {net : Net V S K'} {df : DF V S}

/-- The estimate in terms of the numbers of rows. -/
theorem factor_eq (hks : ∀ v, (statesOf net v).Nodup) (a : FitArgs K) {x : V → S} {v : V} (hv : v ∈ net.nodes) (T : Finset V) :
    factor a net df x v T =
      if a.method = "MaximumLikelihoodEstimator" then
        if cell net df T x = 0 then 1 / ((statesOf net v).length : K) else cell net df (insert v T) x / cell net df T x
      else if a.prior = some "K2" then (cell net df (insert v T) x + 1) / (cell net df T x + (statesOf net v).length)
      else (cell net df (insert v T) x + a.ess.getD 0 / ((statesOf net v).length * (∏ t ∈ T, (statesOf net t).length : ℕ))) /
        (cell net df T x + (statesOf net v).length * (a.ess.getD 0 / ((statesOf net v).length * (∏ t ∈ T, (statesOf net t).length : ℕ)))) := by
  have h1 : (df.rows.countP fun r => Known net r ∧ r v = some (x v) ∧ ∀ t ∈ T, r t = some (x t)) = cell net df (insert v T) x := by
    unfold cell
    refine List.countP_congr fun r _ => ?_
    simp [Finset.forall_mem_insert]
  have h2 : ((statesOf net v).map fun s => df.rows.countP fun r => Known net r ∧ r v = some s ∧ ∀ t ∈ T, r t = some (x t)).sum =
      cell net df T x := by
    rw [cell, ← sum_countP (hks v) df.rows (fun r => Known net r ∧ ∀ t ∈ T, r t = some (x t)) (fun r => r v) fun r _ h => h.1 v hv]
    congr 1
    refine List.map_congr_left fun s _ => List.countP_congr fun r _ => ?_
    simp only [decide_eq_true_eq]
    tauto
  unfold factor estimate
  simp only [h1, h2]

theorem cell_mono (x : V → S) {T T' : Finset V} (h : T ⊆ T') : cell net df T' x ≤ cell net df T x := by
  unfold cell
  refine List.countP_mono_left fun r _ hr => ?_
  simp only [decide_eq_true_eq] at hr ⊢
  exact ⟨hr.1, fun t ht => hr.2 t (h ht)⟩

omit [LinearOrder V] [LinearOrder S] in
theorem chain_symm {A B C D : K} (hA : A = 0 → C = 0) (hD : D = 0 → C = 0) : A / B * (C / A) = D / B * (C / D) := by
  have h : ∀ A : K, (A = 0 → C = 0) → A / B * (C / A) = C / B := by
    intro A hA
    by_cases h : A = 0
    · rw [hA h]; simp
    · field_simp
  rw [h A hA, h D hD]

variable [LinearOrder K] [IsStrictOrderedRing K]

/-- The chain rule holds for the estimates, in both orders. -/
theorem factor_swap (hks : ∀ v, (statesOf net v).Nodup) {a : FitArgs K} (hess : ∀ n, a.ess = some n → 0 < n)
    (ha : a.method = "MaximumLikelihoodEstimator" ∨ a.prior = some "BDeu") {x : V → S} {u v : V} (hu : u ∈ net.nodes) (hv : v ∈ net.nodes)
    (huv : u ≠ v) {Z : Finset V} (huZ : u ∉ Z) (hvZ : v ∉ Z) (hx : ∀ w ∈ insert u (insert v Z), statesOf net w ≠ []) :
    factor a net df x u Z * factor a net df x v (insert u Z) = factor a net df x v Z * factor a net df x u (insert v Z) := by
  rw [factor_eq hks a hu, factor_eq hks a hv, factor_eq hks a hv, factor_eq hks a hu, Finset.insert_comm v u Z]
  have m1 := cell_mono (net := net) (df := df) x (Finset.subset_insert u Z)
  have m2 := cell_mono (net := net) (df := df) x (Finset.subset_insert v Z)
  have m3 : cell net df (insert u (insert v Z)) x ≤ cell net df (insert u Z) x :=
    cell_mono x (Finset.insert_subset_insert u (Finset.subset_insert v Z))
  have m4 := cell_mono (net := net) (df := df) x (Finset.subset_insert u (insert v Z))
  by_cases hm : a.method = "MaximumLikelihoodEstimator"
  · simp only [if_pos hm]
    by_cases h0 : cell net df Z x = 0
    · rw [if_pos h0, if_pos h0, if_pos (by omega), if_pos (by omega), mul_comm]
    · rw [if_neg h0, if_neg h0]
      have e : ∀ (A : ℕ) (l : K), cell net df (insert u (insert v Z)) x ≤ A →
          (A : K) / (cell net df Z x : K) * (if A = 0 then 1 / l else (cell net df (insert u (insert v Z)) x : K) / A) =
          (cell net df (insert u (insert v Z)) x : K) / cell net df Z x := by
        intro A l hA
        by_cases hA0 : A = 0
        · subst hA0
          rw [Nat.le_zero.1 hA]
          simp
        · rw [if_neg hA0]
          have : (A : K) ≠ 0 := Nat.cast_ne_zero.2 hA0
          field_simp
      rw [e _ _ m3, e _ _ m4]
  · have hp : a.prior ≠ some "K2" := by
      rw [ha.resolve_left hm]
      decide
    simp only [if_neg hm, if_neg hp]
    have hlen : ∀ w ∈ insert u (insert v Z), ((statesOf net w).length : K) ≠ 0 := fun w hw =>
      Nat.cast_ne_zero.2 fun e => hx w hw (List.eq_nil_of_length_eq_zero e)
    have lu := hlen u (by simp)
    have lv := hlen v (by simp)
    have lZ : ((∏ t ∈ Z, (statesOf net t).length : ℕ) : K) ≠ 0 := by
      refine Nat.cast_ne_zero.2 (Finset.prod_ne_zero_iff.2 fun t ht e => hx t (by simp [ht]) (List.eq_nil_of_length_eq_zero e))
    rw [Finset.prod_insert huZ, Finset.prod_insert hvZ, Nat.cast_mul, Nat.cast_mul]
    have hn : 0 ≤ a.ess.getD 0 := by
      cases he : a.ess with
      | none => simp
      | some n => exact (hess n he).le
    generalize ha' : a.ess.getD 0 = n at hn
    generalize hlu : ((statesOf net u).length : K) = su at lu
    generalize hlv : ((statesOf net v).length : K) = sv at lv
    generalize hlz : ((∏ t ∈ Z, (statesOf net t).length : ℕ) : K) = sz at lZ
    have su0 : 0 ≤ su := hlu ▸ Nat.cast_nonneg _
    have sv0 : 0 ≤ sv := hlv ▸ Nat.cast_nonneg _
    have sz0 : 0 ≤ sz := hlz ▸ Nat.cast_nonneg _
    have e1 : su * (n / (su * sz)) = n / sz := by field_simp
    have e2 : sv * (n / (sv * sz)) = n / sz := by field_simp
    have e3 : sv * (n / (sv * (su * sz))) = n / (su * sz) := by field_simp
    have e4 : su * (n / (su * (sv * sz))) = n / (sv * sz) := by field_simp
    have e5 : n / (su * (sv * sz)) = n / (sv * (su * sz)) := by
      congr 1
      ring
    rw [e1, e2, e3, e4, e5]
    have hz : ∀ (A : ℕ) (s : K), 0 ≤ s → s ≠ 0 → cell net df (insert u (insert v Z)) x ≤ A → (A : K) + n / (s * sz) = 0 →
        (cell net df (insert u (insert v Z)) x : K) + n / (sv * (su * sz)) = 0 := by
      intro A s hs hs0 hA h
      have p1 : (0 : K) ≤ A := Nat.cast_nonneg A
      have p2 : 0 ≤ n / (s * sz) := div_nonneg hn (mul_nonneg hs sz0)
      have q1 : (A : K) = 0 := by linarith
      have q2 : n / (s * sz) = 0 := by linarith
      have q3 : n = 0 := (div_eq_zero_iff.1 q2).resolve_right (mul_ne_zero hs0 lZ)
      rw [Nat.le_zero.1 (hA.trans (Nat.cast_eq_zero.1 q1).le), q3]
      simp
    exact chain_symm (hz _ su su0 lu m3) (hz _ sv sv0 lv m4)

/-- The joint weight of the estimates is the same for equivalent structures, also if the estimates of some nodes, whose parents are the same, are
left out. -/
theorem factors_equivalent_off (hks : ∀ v, (statesOf net v).Nodup) {a : FitArgs K} (hess : ∀ n, a.ess = some n → 0 < n)
    (ha : a.method = "MaximumLikelihoodEstimator" ∨ a.prior = some "BDeu") (hne : ∀ v ∈ net.nodes, statesOf net v ≠ []) {G H : Finset (V × V)}
    (hG : NoCycle fun a b => (a, b) ∈ G) (hH : NoCycle fun a b => (a, b) ∈ H)
    (he : Equivalent (fun a b => (a, b) ∈ G) fun a b => (a, b) ∈ H) (hn : ∀ u v, (u, v) ∈ H → u ∈ net.nodes ∧ v ∈ net.nodes) {J : Finset V}
    (hJ : ∀ v ∈ J, parentSet G v = parentSet H v) (x : V → S) :
    ∏ v ∈ net.nodes.toFinset \ J, factor a net df x v (parentSet G v) = ∏ v ∈ net.nodes.toFinset \ J, factor a net df x v (parentSet H v) := by
  refine Graph.equivalent_induction (fun G => ∀ v ∈ J, parentSet G v = parentSet H v)
    (fun G => ∏ v ∈ net.nodes.toFinset \ J, factor a net df x v (parentSet G v)) hH ?_ hJ hG he
  intro G G' u v hP hG hl hc hvu hG'
  have huJ : u ∉ J := fun h => by
    have h' := mem_parentSet.2 hvu
    rw [← hP u h] at h'
    exact hG.asymm hc.arrow (mem_parentSet.1 h')
  have hvJ : v ∉ J := fun h => by
    have h' := mem_parentSet.2 hc.arrow
    rw [hP v h] at h'
    exact hH.asymm hvu (mem_parentSet.1 h')
  have hnode : ∀ a b, (a, b) ∈ G → a ∈ net.nodes ∧ b ∈ net.nodes := by
    intro a b hab
    rcases (hl a b).1 (Or.inl hab) with h | h
    · exact hn a b h
    · exact (hn b a h).symm
  obtain ⟨hu, hv⟩ := hnode u v hc.arrow
  have huv : u ≠ v := by
    rintro rfl
    exact hG.irrefl _ hc.arrow
  have huZ : u ∉ parentSet G u := fun h => hG.irrefl u (mem_parentSet.1 h)
  have hvZ : v ∉ parentSet G u := fun h => hG.asymm hc.arrow (mem_parentSet.1 h)
  have p1 : parentSet G v = insert u (parentSet G u) := by
    ext z
    rw [Finset.mem_insert, mem_parentSet, mem_parentSet]
    exact hc.parents z
  have p2 : parentSet G' u = insert v (parentSet G u) := by
    ext z
    rw [Finset.mem_insert, mem_parentSet, mem_parentSet, hG', Turned]
    constructor
    · rintro (⟨h, -⟩ | ⟨rfl, -⟩)
      · exact Or.inr h
      · exact Or.inl rfl
    · rintro (rfl | h)
      · exact Or.inr ⟨rfl, rfl⟩
      · exact Or.inl ⟨h, fun h => huv h.2⟩
  have p3 : parentSet G' v = parentSet G u := by
    ext z
    rw [mem_parentSet, mem_parentSet, hG', Turned]
    constructor
    · rintro (⟨h, h'⟩ | ⟨-, e⟩)
      · rcases (hc.parents z).1 h with e | h
        · exact absurd ⟨e, rfl⟩ h'
        · exact h
      · exact absurd e.symm huv
    · intro h
      refine Or.inl ⟨(hc.parents z).2 (Or.inr h), ?_⟩
      rintro ⟨rfl, -⟩
      exact huZ (mem_parentSet.2 h)
  have p4 : ∀ w, w ≠ u → w ≠ v → parentSet G' w = parentSet G w := by
    intro w h1 h2
    ext z
    rw [mem_parentSet, mem_parentSet, hG', Turned]
    constructor
    · rintro (⟨h, -⟩ | ⟨-, e⟩)
      · exact h
      · exact absurd e h1
    · exact fun h => Or.inl ⟨h, fun h => h2 h.2⟩
  refine ⟨fun w hw => ?_, ?_⟩
  · rw [p4 w (fun e => huJ (e ▸ hw)) (fun e => hvJ (e ▸ hw))]
    exact hP w hw
  have hum : u ∈ net.nodes.toFinset \ J := Finset.mem_sdiff.2 ⟨List.mem_toFinset.2 hu, huJ⟩
  have hvm : v ∈ (net.nodes.toFinset \ J).erase u := Finset.mem_erase.2 ⟨huv.symm, Finset.mem_sdiff.2 ⟨List.mem_toFinset.2 hv, hvJ⟩⟩
  rw [← Finset.mul_prod_erase _ _ hum, ← Finset.mul_prod_erase _ _ hvm, ← Finset.mul_prod_erase _ (fun w => factor a net df x w (parentSet G' w)) hum,
    ← Finset.mul_prod_erase _ (fun w => factor a net df x w (parentSet G' w)) hvm, p1, p2, p3, ← mul_assoc, ← mul_assoc]
  rw [factor_swap hks hess ha hu hv huv huZ hvZ, mul_comm (factor a net df x v (parentSet G u))]
  · congr 1
    refine Finset.prod_congr rfl fun w hw => ?_
    obtain ⟨h2, hw⟩ := Finset.mem_erase.1 hw
    rw [p4 w (Finset.mem_erase.1 hw).1 h2]
  · intro w hw
    apply hne
    rcases Finset.mem_insert.1 hw with rfl | hw
    · exact hu
    rcases Finset.mem_insert.1 hw with rfl | hw
    · exact hv
    exact (hnode _ _ (mem_parentSet.1 hw)).1

/-- The joint weight of the estimates is the same for equivalent structures. -/
theorem factors_equivalent (hks : ∀ v, (statesOf net v).Nodup) {a : FitArgs K} (hess : ∀ n, a.ess = some n → 0 < n)
    (ha : a.method = "MaximumLikelihoodEstimator" ∨ a.prior = some "BDeu") (hne : ∀ v ∈ net.nodes, statesOf net v ≠ []) {G H : Finset (V × V)}
    (hG : NoCycle fun a b => (a, b) ∈ G) (hH : NoCycle fun a b => (a, b) ∈ H)
    (he : Equivalent (fun a b => (a, b) ∈ G) fun a b => (a, b) ∈ H) (hn : ∀ u v, (u, v) ∈ H → u ∈ net.nodes ∧ v ∈ net.nodes) (x : V → S) :
    ∏ v ∈ net.nodes.toFinset, factor a net df x v (parentSet G v) = ∏ v ∈ net.nodes.toFinset, factor a net df x v (parentSet H v) := by
  simpa using factors_equivalent_off (df := df) hks hess ha hne hG hH he hn (J := ∅) (by simp) x

omit [LinearOrder K] [IsStrictOrderedRing K] in
theorem dataJoint_eq_factors (a : FitArgs K) (hnd : net.nodes.Nodup) {E : List (V × V)} {par : V → List V}
    (hpar : ∀ v ∈ net.nodes, IsParentList E v (par v)) (x : V → S) :
    dataJoint a net df par x = ∏ v ∈ net.nodes.toFinset, factor a net df x v (parentSet E.toFinset v) := by
  unfold dataJoint
  rw [List.prod_toFinset _ hnd]
  congr 1
  refine List.map_congr_left fun v hv => ?_
  have hp := hpar v hv
  have hset : parentSet E.toFinset v = (par v).toFinset := by
    ext u
    rw [mem_parentSet, List.mem_toFinset, List.mem_toFinset, hp.2]
  unfold factor
  rw [hset, List.prod_toFinset _ (hp.1.imp fun h => ne_of_lt h)]
  congr 1
  funext s
  unfold observed
  refine List.countP_congr fun r _ => ?_
  simp only [decide_eq_true_eq, List.map_map, List.map_inj_left, List.mem_toFinset, comp_apply]

omit [LinearOrder K] [IsStrictOrderedRing K] in
theorem factor_congr {net₂ : Net V S K'} (hn : ∀ v, v ∈ net₂.nodes ↔ v ∈ net.nodes)
    (hst : ∀ v ∈ net.nodes, (statesOf net₂ v).Perm (statesOf net v)) (a : FitArgs K) (x : V → S) {v : V} (hv : v ∈ net.nodes) {T : Finset V}
    (hT : ∀ t ∈ T, t ∈ net.nodes) : factor a net₂ df x v T = factor a net df x v T := by
  unfold factor
  refine estimate_renamed (g := id) a (by simpa using hst v hv) (Finset.prod_congr rfl fun t ht => (hst t (hT t ht)).length_eq) (fun s => ?_) (x v)
  refine List.countP_congr fun r _ => ?_
  have : Known net₂ r ↔ Known net r := by
    unfold Known
    constructor
    · intro h u hu
      obtain ⟨s, hs, e⟩ := h u ((hn u).2 hu)
      exact ⟨s, (hst u hu).mem_iff.1 hs, e⟩
    · intro h u hu
      obtain ⟨s, hs, e⟩ := h u ((hn u).1 hu)
      exact ⟨s, (hst u ((hn u).1 hu)).mem_iff.2 hs, e⟩
  simp only [decide_eq_true_eq, this, id_eq]

omit [Field K] [LinearOrder K] [IsStrictOrderedRing K] in
theorem equivalent_nodes {E E₂ : List (V × V)} (he : Equivalent (EdgeRel E) (EdgeRel E₂)) (v : V) :
    v ∈ nodesOfEdges E₂ ↔ v ∈ nodesOfEdges E := by
  have key : ∀ {E E₂ : List (V × V)}, Equivalent (EdgeRel E) (EdgeRel E₂) → v ∈ nodesOfEdges E → v ∈ nodesOfEdges E₂ := by
    intro E E₂ he h
    obtain ⟨⟨a, b⟩, hab, h⟩ := mem_nodesOfEdges.1 h
    rcases (he.links a b).1 (Or.inl hab) with h' | h'
    · exact mem_nodesOfEdges.2 ⟨(a, b), h', h⟩
    · exact mem_nodesOfEdges.2 ⟨(b, a), h', h.symm⟩
  exact ⟨key he.symm, key he⟩

end

section
variable {V S K : Type} [LinearOrder V] [LinearOrder S] [Field K] [LinearOrder K] [IsStrictOrderedRing K]

/-- The joint weights of the estimates from the same data are the same for equivalent structures. -/
theorem dataJoint_equivalent {int : ℕ → S} {ns ns₂ : List V} {E E₂ : List (V × V)} (hE : IsStructure ns E) (hE₂ : IsStructure ns₂ E₂)
    {net net₂ : Net V S K} (hr : Reach int ns E net) (hr₂ : Reach int ns₂ E₂ net₂) (heq : Equivalent (EdgeRel E) (EdgeRel E₂))
    (hne : ∀ v ∈ net.nodes, statesOf net v ≠ []) (hst : ∀ v ∈ net.nodes, (statesOf net₂ v).Perm (statesOf net v)) {df : DF V S} {a : FitArgs K}
    (hess : ∀ n, a.ess = some n → 0 < n) (ha : a.method = "MaximumLikelihoodEstimator" ∨ a.prior = some "BDeu")
    (hks : ∀ v, (statesOf net v).Nodup) (x : V → S) :
    dataJoint a net₂ df (sortedParents E₂) x = dataJoint a net df (sortedParents E) x := by
  have hw := hr.wf hE
  have hw₂ := hr₂.wf hE₂
  have hnn : ∀ v, v ∈ net₂.nodes ↔ v ∈ net.nodes := fun v => by rw [hw.nodes, hw₂.nodes]; exact equivalent_nodes heq v
  have hnd1 : net.nodes.Nodup := by rw [hw.nodes]; exact nodesOfEdges_nodup E
  have hnd2 : net₂.nodes.Nodup := by rw [hw₂.nodes]; exact nodesOfEdges_nodup E₂
  have hpar : ∀ v ∈ net.nodes, IsParentList E v (sortedParents E v) := fun v _ => sortedParents_spec hE.edges_nodup v
  have hpar₂ : ∀ v ∈ net₂.nodes, IsParentList E₂ v (sortedParents E₂ v) := fun v _ => sortedParents_spec hE₂.edges_nodup v
  rw [dataJoint_eq_factors a hnd1 hpar, dataJoint_eq_factors a hnd2 hpar₂]
  have hG : (fun a b => (a, b) ∈ E.toFinset) = EdgeRel E := by funext a b; simp [EdgeRel]
  have hG₂ : (fun a b => (a, b) ∈ E₂.toFinset) = EdgeRel E₂ := by funext a b; simp [EdgeRel]
  rw [factors_equivalent (net := net) hks hess ha hne (G := E.toFinset) (H := E₂.toFinset) (by rw [hG]; exact hw.acyclic)
    (by rw [hG₂]; exact hw₂.acyclic) (by rw [hG, hG₂]; exact heq)]
  · have : net₂.nodes.toFinset = net.nodes.toFinset := by ext v; simp [hnn]
    rw [this]
    refine Finset.prod_congr rfl fun v hv => ?_
    refine factor_congr hnn hst a x (List.mem_toFinset.1 hv) fun t ht => ?_
    rw [← hnn, hw₂.nodes]
    exact mem_nodesOfEdges.2 ⟨(t, v), List.mem_toFinset.1 (mem_parentSet.1 ht), Or.inl rfl⟩
  · intro u v huv
    rw [← hnn, ← hnn, hw₂.nodes]
    exact ⟨mem_nodesOfEdges.2 ⟨_, List.mem_toFinset.1 huv, Or.inl rfl⟩, mem_nodesOfEdges.2 ⟨_, List.mem_toFinset.1 huv, Or.inr rfl⟩⟩

/-- **C145**: two structures with the same links and the same colliders, node states and data being the same, and an estimator other than
the Bayesian one with prior K2.  If fitting succeeds for the first, it does for the second, and the two engines answer every query alike. -/
theorem equivalent_answers {int : ℕ → S} (hint : Injective int) {ns ns₂ : List V} {E E₂ : List (V × V)} (hE : IsStructure ns E) (hEne : E ≠ [])
    (hE₂ : IsStructure ns₂ E₂) {net net₂ : Net V S K} (hr : Reach int ns E net) (hr₂ : Reach int ns₂ E₂ net₂)
    (heq : Equivalent (EdgeRel E) (EdgeRel E₂)) (hne : ∀ v ∈ net.nodes, statesOf net v ≠ [])
    (hst : ∀ v ∈ net.nodes, (statesOf net₂ v).Perm (statesOf net v)) {h h' h₂ : Heap V S} {ref ref₂ : ℕ} {df : DF V S}
    (hdf : h[ref]? = some df) (hdf₂ : h₂[ref₂]? = some df) {a : FitArgs K} (hess : ∀ n, a.ess = some n → 0 < n)
    (ha : a.method = "MaximumLikelihoodEstimator" ∨ a.prior = some "BDeu") {net' : Net V S K}
    (hf : fitCpds int net h ref a = (net', h', .ok ())) {okName okName₂ : V → Bool} (hok : ∀ v ∈ net.nodes, okName v = true)
    (hok₂ : ∀ v ∈ net.nodes, okName₂ v = true) {nd nd₂ : BBN.Nondet V} (hnd : nd.Legal) (hnd₂ : nd₂.Legal) :
    ∃ net₂' h₂' tables tables₂ e e₂, fitCpds int net₂ h₂ ref₂ a = (net₂', h₂', .ok ()) ∧ cpds net' = .ok tables ∧
      cpds net₂' = .ok tables₂ ∧ BBN.Engine.create okName (framesOf tables) = .ok e ∧
      BBN.Engine.create okName₂ (framesOf tables₂) = .ok e₂ ∧
      ∀ ev : List (V × S), (ev.map Prod.fst).Nodup →
        (∃ out out₂, e.query nd ev = .ok out ∧ e₂.query nd₂ ev = .ok out₂ ∧ BBN.SameAnswer id (fun _ => id) out out₂) ∨
        (∃ err, e.query nd ev = .error err) ∧ ∃ err, e₂.query nd₂ ev = .error err := by
  have hw := hr.wf hE
  have hw₂ := hr₂.wf hE₂
  have hnn : ∀ v, v ∈ net₂.nodes ↔ v ∈ net.nodes := fun v => by rw [hw.nodes, hw₂.nodes]; exact equivalent_nodes heq v
  have hnd1 : net.nodes.Nodup := by rw [hw.nodes]; exact nodesOfEdges_nodup E
  have hnd2 : net₂.nodes.Nodup := by rw [hw₂.nodes]; exact nodesOfEdges_nodup E₂
  have hperm : net₂.nodes.Perm net.nodes := (List.perm_ext_iff_of_nodup hnd2 hnd1).2 hnn
  have hne₂ : ∀ v ∈ net₂.nodes, statesOf net₂ v ≠ [] := by
    intro v hv e
    have := (hst v ((hnn v).1 hv)).length_eq
    rw [e] at this
    exact hne v ((hnn v).1 hv) (List.eq_nil_of_length_eq_zero this.symm)
  obtain ⟨e₀, he₀⟩ := List.exists_mem_of_ne_nil E hEne
  have hm₀ : e₀.1 ∈ net.nodes := by
    rw [hw.nodes]
    exact mem_nodesOfEdges.2 ⟨e₀, he₀, Or.inl rfl⟩
  have hEne₂ : E₂ ≠ [] := by
    rintro rfl
    have := (hnn e₀.1).2 hm₀
    rw [hw₂.nodes, mem_nodesOfEdges] at this
    simp at this
  have hokf : (fitCpds int net h ref a).2.2 = .ok () := by rw [hf]
  rw [fit_ok_iff hE hr hdf] at hokf
  have hokf₂ : (fitCpds int net₂ h₂ ref₂ a).2.2 = .ok () := by
    rw [fit_ok_iff hE₂ hr₂ hdf₂]
    refine ⟨fun e => ?_, fun w hw => hokf.2.1 w ((hnn w).1 hw), hokf.2.2⟩
    exact hne₂ e₀.1 ((hnn _).2 hm₀) (by rw [statesOf, e])
  have hf₂ : fitCpds int net₂ h₂ ref₂ a = ((fitCpds int net₂ h₂ ref₂ a).1, (fitCpds int net₂ h₂ ref₂ a).2.1, .ok ()) := by
    rw [← hokf₂]
  obtain ⟨tables, hc, n1, f1⟩ := fitted_is_network hint hE hEne hr hne hess hf
  obtain ⟨tables₂, hc₂, n2, f2⟩ := fitted_is_network hint hE₂ hEne₂ hr₂ hne₂ hess hf₂
  have w1 := framesWF hint hE hEne hr hne hf hc
  have hfr : (framesOf tables).map Prod.fst = net.nodes := by rw [← n1, framesOf, List.map_map]; rfl
  have hfr₂ : (framesOf tables₂).map Prod.fst = net₂.nodes := by rw [← n2, framesOf, List.map_map]; rfl
  obtain ⟨e, he, hinv, hcp⟩ := BBN.Engine.create_ok f1 (okName := okName) fun q hq => hok _ (hfr ▸ List.mem_map_of_mem (f := Prod.fst) hq)
  obtain ⟨e₂, he₂, hinv₂, hcp₂⟩ := BBN.Engine.create_ok f2 (okName := okName₂) fun q hq =>
    hok₂ _ ((hnn _).1 (hfr₂ ▸ List.mem_map_of_mem (f := Prod.fst) hq))
  refine ⟨_, _, tables, tables₂, e, e₂, hf₂, hc, hc₂, he, he₂, fun ev hk => ?_⟩
  have hpar : ∀ v ∈ net.nodes, IsParentList E v (sortedParents E v) := fun v _ => sortedParents_spec hE.edges_nodup v
  have hpar₂ : ∀ v ∈ net₂.nodes, IsParentList E₂ v (sortedParents E₂ v) := fun v _ => sortedParents_spec hE₂.edges_nodup v
  obtain ⟨hdom, hmass⟩ := massOf_framesOf hint hE hr hne hdf hf hpar hc
  obtain ⟨hdom₂, hmass₂⟩ := massOf_framesOf hint hE₂ hr₂ hne₂ hdf₂ hf₂ hpar₂ hc₂
  obtain ⟨x₀, hx₀⟩ : ∃ x₀ : V → S, ∀ v ∈ net.nodes, x₀ v ∈ statesOf net v := by
    refine ⟨fun v => (statesOf net v).headD (int 0), fun v hv => ?_⟩
    obtain ⟨s, l, hl⟩ := List.exists_cons_of_ne_nil (hne v hv)
    simp [hl]
  have hxd : ∀ v ∈ (framesOf tables).map Prod.fst, x₀ v ∈ domOf (framesOf tables) v := by
    intro v hv
    rw [hfr] at hv
    rw [hdom v hv]
    exact hx₀ v hv
  have hxd₂ : ∀ v ∈ (framesOf tables₂).map Prod.fst, x₀ v ∈ domOf (framesOf tables₂) v := by
    intro v hv
    rw [hfr₂] at hv
    rw [hdom₂ v hv, (hst v ((hnn v).1 hv)).mem_iff]
    exact hx₀ v ((hnn v).1 hv)
  have hgood : (∀ p ∈ ev, p.1 ∈ (framesOf tables₂).map Prod.fst ∧ p.2 ∈ domOf (framesOf tables₂) p.1) ↔
      ∀ p ∈ ev, p.1 ∈ (framesOf tables).map Prod.fst ∧ p.2 ∈ domOf (framesOf tables) p.1 := by
    refine forall₂_congr fun p _ => ?_
    rw [hfr, hfr₂, hnn]
    refine and_congr_right fun hp => ?_
    rw [hdom _ hp, hdom₂ _ ((hnn _).2 hp), (hst _ hp).mem_iff]
  by_cases hg : ∀ p ∈ ev, p.1 ∈ (framesOf tables).map Prod.fst ∧ p.2 ∈ domOf (framesOf tables) p.1
  swap
  · exact Or.inr ⟨hinv.query_bad hnd f1 hxd hk hg, hinv₂.query_bad hnd₂ f2 hxd₂ hk fun h' => hg (hgood.1 h')⟩
  left
  have hjoint := dataJoint_equivalent hE hE₂ hr hr₂ heq hne hst hess ha w1.nodup (df := df)
  have hM : ∀ (A : (V → S) → Prop) [DecidablePred A], dataMass a net₂ df (sortedParents E₂) x₀ A = dataMass a net df (sortedParents E) x₀ A := by
    intro A _
    rw [dataMass, dataMass, BBN.massWith_eq_sumOver, BBN.massWith_eq_sumOver, BBN.sumOver_perm _ hperm]
    rw [sumOver_states hst]
    simp only [hjoint]
  obtain ⟨out, ho, hrep⟩ := hinv.query_answers hnd f1 (by rw [hcp]; exact f1.connected) hxd hk hg
  obtain ⟨out₂, ho₂, hrep₂⟩ := hinv₂.query_answers hnd₂ f2 (by rw [hcp₂]; exact f2.connected) hxd₂ hk (hgood.2 hg)
  refine ⟨out, out₂, ho, ho₂, BBN.Reports.renamed hrep hrep₂ (by rw [hfr, hfr₂, List.map_id]; exact hperm) ?_ ?_⟩
  · intro v hv
    rw [hfr] at hv
    rw [List.map_id, id_eq, hdom v hv, hdom₂ v ((hnn v).2 hv)]
    exact hst v hv
  · intro v hv s
    simp only [hcp, hcp₂, hmass, hmass₂, hM, id_eq]

end

end Verif.Network
