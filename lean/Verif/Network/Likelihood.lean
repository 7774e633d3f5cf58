import Verif.Network.Witness
import Mathlib.Algebra.Order.Ring.Pow
import Mathlib.Tactic.FieldSimp
import Mathlib.Tactic.Positivity

/-!
# C104: maximum likelihood
-/

namespace Verif.Network
open Function

section
variable {K : Type} [Field K] [LinearOrder K] [IsStrictOrderedRing K]

/-- One step of the inequality of arithmetic and geometric means. -/
theorem amgm_step {n : ℕ} (hn : 0 < n) {x t : K} (hx : 0 ≤ x) (ht : 0 ≤ t) :
    x * t ^ n * (n + 1 : K) ^ (n + 1) ≤ (n : K) ^ n * (x + t) ^ (n + 1) := by
  have hn' : (0 : K) < n := by exact_mod_cast hn
  rcases ht.eq_or_lt with rfl | ht
  · rw [zero_pow hn.ne']
    simp only [mul_zero, zero_mul, add_zero]
    positivity
  have hb := one_add_mul_le_pow (R := K) (a := (x + t) / ((n + 1) * (t / n)) - 1) (by
    have : 0 ≤ (x + t) / ((n + 1) * (t / n)) := by positivity
    linarith) (n + 1)
  have h1 : 1 + ((n + 1 : ℕ) : K) * ((x + t) / ((n + 1) * (t / n)) - 1) = x / (t / n) := by
    push_cast
    field_simp
    ring
  rw [h1, add_sub_cancel, div_pow, div_le_div_iff₀ (by positivity) (by positivity), mul_pow] at hb
  have h2 : x * ((n + 1 : K) ^ (n + 1) * (t / n) ^ (n + 1)) = (t / n) * (x * t ^ n * (n + 1 : K) ^ (n + 1) / (n : K) ^ n) := by
    rw [div_pow, pow_succ t, pow_succ (n : K) n]
    field_simp
  rw [h2, mul_comm ((x + t) ^ (n + 1))] at hb
  have h3 := le_of_mul_le_mul_left hb (by positivity)
  rw [div_le_iff₀ (by positivity)] at h3
  rwa [mul_comm ((n : K) ^ n)]

/-- The inequality of arithmetic and geometric means. -/
theorem amgm (l : List K) (h : ∀ x ∈ l, 0 ≤ x) : l.prod * (l.length : K) ^ l.length ≤ l.sum ^ l.length := by
  induction l with
  | nil => simp
  | cons x l ih =>
    have hx := h x List.mem_cons_self
    have hl : ∀ y ∈ l, 0 ≤ y := fun y hy => h y (List.mem_cons_of_mem _ hy)
    have ih := ih hl
    have hs : 0 ≤ l.sum := List.sum_nonneg hl
    rw [List.prod_cons, List.sum_cons, List.length_cons]
    rcases Nat.eq_zero_or_pos l.length with h0 | hpos
    · rw [List.length_eq_zero_iff] at h0
      subst h0
      simp
    · have h1 := amgm_step hpos hx hs
      have hn' : (0 : K) < (l.length : K) ^ l.length := by positivity
      push_cast
      refine le_of_mul_le_mul_left ?_ hn'
      calc (l.length : K) ^ l.length * (x * l.prod * (l.length + 1 : K) ^ (l.length + 1))
          = (l.prod * (l.length : K) ^ l.length) * (x * (l.length + 1 : K) ^ (l.length + 1)) := by ring
        _ ≤ l.sum ^ l.length * (x * (l.length + 1 : K) ^ (l.length + 1)) := by
            refine mul_le_mul_of_nonneg_right ih (by positivity)
        _ = x * l.sum ^ l.length * (l.length + 1 : K) ^ (l.length + 1) := by ring
        _ ≤ _ := h1

/-- Numbers that are one on average have a product of at most one. -/
theorem prod_le_one_of_sum {l : List K} (h : ∀ x ∈ l, 0 ≤ x) (hs : l.sum ≤ l.length) : l.prod ≤ 1 := by
  rcases Nat.eq_zero_or_pos l.length with h0 | hpos
  · rw [List.length_eq_zero_iff] at h0
    simp [h0]
  have h1 := amgm l h
  have h2 : l.sum ^ l.length ≤ (l.length : K) ^ l.length := pow_le_pow_left₀ (List.sum_nonneg h) hs _
  have hn' : (0 : K) < (l.length : K) ^ l.length := by positivity
  have := h1.trans h2
  nlinarith

end

section
variable {α β K : Type} [DecidableEq β]

theorem prod_map_group [CommMonoid K] (key : α → β) (f : α → K) {cs : List β} (hcs : cs.Nodup) (l : List α) (hl : ∀ a ∈ l, key a ∈ cs) :
    (l.map f).prod = (cs.map fun c => ((l.filter fun a => key a = c).map f).prod).prod := by
  induction l with
  | nil => simp
  | cons a l ih =>
    rw [List.map_cons, List.prod_cons, ih fun b hb => hl b (List.mem_cons_of_mem _ hb)]
    have ha := hl a List.mem_cons_self
    clear ih hl
    induction cs with
    | nil => simp at ha
    | cons c cs ih =>
      rw [List.nodup_cons] at hcs
      rw [List.map_cons, List.map_cons, List.prod_cons, List.prod_cons]
      by_cases hc : key a = c
      · have h1 : (cs.map fun c => (((a :: l).filter fun a => key a = c).map f).prod) =
            cs.map fun c => ((l.filter fun a => key a = c).map f).prod := by
          apply List.map_congr_left
          intro c' hc'
          rw [List.filter_cons_of_neg]
          simp only [decide_eq_true_eq]
          rintro rfl
          exact hcs.1 (hc ▸ hc')
        rw [h1, List.filter_cons_of_pos (by simpa using hc), List.map_cons, List.prod_cons, mul_assoc]
      · rw [List.filter_cons_of_neg (by simpa using hc), ← ih hcs.2 ((List.mem_cons.1 ha).resolve_left hc)]
        rw [← mul_assoc, ← mul_assoc, mul_comm (f a)]

theorem sum_map_group [AddCommMonoid K] (key : α → β) (f : α → K) {cs : List β} (hcs : cs.Nodup) (l : List α) (hl : ∀ a ∈ l, key a ∈ cs) :
    (l.map f).sum = (cs.map fun c => ((l.filter fun a => key a = c).map f).sum).sum :=
  prod_map_group (K := Multiplicative K) key f hcs l hl

end

theorem prod_map_nonneg {β K : Type} [Field K] [LinearOrder K] [IsStrictOrderedRing K] {l : List β} {f : β → K} (h : ∀ s ∈ l, 0 ≤ f s) :
    0 ≤ (l.map f).prod := by
  induction l with
  | nil => simp
  | cons a l ih =>
    rw [List.map_cons, List.prod_cons]
    exact mul_nonneg (h a List.mem_cons_self) (ih fun s hs => h s (List.mem_cons_of_mem _ hs))

theorem prod_map_pos {β K : Type} [CommSemiring K] [PartialOrder K] [IsStrictOrderedRing K] {l : List β} {f : β → K} (h : ∀ s ∈ l, 0 < f s) :
    0 < (l.map f).prod := by
  induction l with
  | nil => simp
  | cons a l ih =>
    rw [List.map_cons, List.prod_cons]
    exact mul_pos (h a List.mem_cons_self) (ih fun s hs => h s (List.mem_cons_of_mem _ hs))

/-- The relative frequencies make a sequence of observations at least as probable as any other probabilities. -/
theorem frequencies_best {β K : Type} [DecidableEq β] [Field K] [LinearOrder K] [IsStrictOrderedRing K] {ks : List β} (hks : ks.Nodup)
    (l : List β) (hl : ∀ s ∈ l, s ∈ ks) (q : β → K) (hq : ∀ s ∈ ks, 0 ≤ q s) (hsum : (ks.map q).sum = 1) :
    (l.map q).prod ≤ (l.map fun s => (l.count s : K) / (l.length : K)).prod := by
  rcases List.eq_nil_or_concat l with rfl | ⟨l', s', hl'⟩
  · simp
  have hne : l ≠ [] := by rw [hl']; simp
  clear hl' l' s'
  have hlen : (0 : K) < l.length := by exact_mod_cast List.length_pos_iff.2 hne
  have hcount : ∀ s ∈ l, (0 : K) < l.count s := fun s hs => by exact_mod_cast List.count_pos_iff.2 hs
  have hp : ∀ s ∈ l, (0 : K) < (l.count s : K) / (l.length : K) := fun s hs => div_pos (hcount s hs) hlen
  have h1 : (l.map q).prod = (l.map fun s => q s / ((l.count s : K) / (l.length : K))).prod *
      (l.map fun s => (l.count s : K) / (l.length : K)).prod := by
    rw [← List.prod_map_mul]
    congr 1
    apply List.map_congr_left
    intro s hs
    rw [div_mul_cancel₀ _ (hp s hs).ne']
  have h2 : (l.map fun s => q s / ((l.count s : K) / (l.length : K))).prod ≤ 1 := by
    apply prod_le_one_of_sum
    · intro x hx
      obtain ⟨s, hs, rfl⟩ := List.mem_map.1 hx
      exact div_nonneg (hq s (hl s hs)) (hp s hs).le
    · rw [List.length_map, sum_map_group id _ hks l hl]
      have h3 : ∀ c ∈ ks, ((l.filter fun a => id a = c).map fun s => q s / ((l.count s : K) / (l.length : K))).sum ≤ q c * l.length := by
        intro c hc
        have h4 : (l.filter fun a => id a = c) = List.replicate (l.count c) c := by
          rw [← List.filter_beq]
          rfl
        rw [h4, List.map_replicate, List.sum_replicate, nsmul_eq_mul]
        by_cases h0 : l.count c = 0
        · rw [h0]
          simp only [Nat.cast_zero, zero_mul]
          exact mul_nonneg (hq c hc) hlen.le
        · have : (l.count c : K) ≠ 0 := by exact_mod_cast h0
          rw [div_div_eq_mul_div, mul_div_cancel₀ _ this]
      refine (List.sum_le_sum h3).trans (le_of_eq ?_)
      rw [List.sum_map_mul_right, hsum, one_mul]
  rw [h1]
  refine mul_le_of_le_one_left ?_ h2
  exact prod_map_nonneg fun s hs => (hp s hs).le

section
variable {V S K : Type} [LinearOrder V] [LinearOrder S] [Field K]

/-- Specification: the probability of the states of the nodes in a row, for conditional probabilities `Q v s ps` of state `s` of `v`
given states `ps` of its parents. -/
def rowLikelihood (nodes : List V) (parents : V → List V) (Q : V → S → List S → K) (r : V → Option S) : K :=
  (nodes.map fun v => (r v).elim 1 fun s => Q v s ((parents v).filterMap r)).prod

/-- Specification: the probability of all rows of the data (in which every node has one of its states). -/
def likelihood (net : Net V S K) (parents : V → List V) (Q : V → S → List S → K) (df : DF V S) : K :=
  ((df.rows.filter fun r => Known net r).map (rowLikelihood net.nodes parents Q)).prod

/-- Specification: conditional probabilities for the structure and the states of the network. -/
def IsConditional [LinearOrder K] (net : Net V S K) (parents : V → List V) (Q : V → S → List S → K) : Prop :=
  ∀ v ∈ net.nodes, ∀ ps, IsConfig net (parents v) ps →
    (∀ s ∈ statesOf net v, 0 ≤ Q v s ps) ∧ ((statesOf net v).map fun s => Q v s ps).sum = 1

variable [LinearOrder K] [IsStrictOrderedRing K]

omit [LinearOrder V] [LinearOrder S] in
theorem rows_prod_comm (nodes : List V) (parents : V → List V) (Q : V → S → List S → K) (rows : List (V → Option S)) :
    (rows.map (rowLikelihood nodes parents Q)).prod =
      (nodes.map fun v => (rows.map fun r => (r v).elim 1 fun s => Q v s ((parents v).filterMap r)).prod).prod := by
  induction rows with
  | nil => simp
  | cons r rows ih =>
    simp only [List.map_cons, List.prod_cons]
    rw [List.prod_map_mul, ih]
    rfl

theorem filterMap_config {net : Net V S K} {r : V → Option S} (hk : Known net r) {l : List V} (hl : ∀ p ∈ l, p ∈ net.nodes) :
    IsConfig net l (l.filterMap r) ∧ l.map r = (l.filterMap r).map some := by
  induction l with
  | nil => exact ⟨List.Forall₂.nil, rfl⟩
  | cons p l ih =>
    obtain ⟨s, hs, hr⟩ := hk p (hl p List.mem_cons_self)
    obtain ⟨h1, h2⟩ := ih fun q hq => hl q (List.mem_cons_of_mem _ hq)
    rw [List.filterMap_cons_some hr, List.map_cons, List.map_cons, h2, hr]
    exact ⟨List.Forall₂.cons hs h1, rfl⟩

theorem prod_map_le {β : Type} {l : List β} {f g : β → K} (h0 : ∀ x ∈ l, 0 ≤ f x) (h : ∀ x ∈ l, f x ≤ g x) :
    (l.map f).prod ≤ (l.map g).prod := by
  induction l with
  | nil => simp
  | cons a l ih =>
    rw [List.map_cons, List.map_cons, List.prod_cons, List.prod_cons]
    refine mul_le_mul (h a List.mem_cons_self)
      (ih (fun x hx => h0 x (List.mem_cons_of_mem _ hx)) fun x hx => h x (List.mem_cons_of_mem _ hx))
      (prod_map_nonneg fun x hx => h0 x (List.mem_cons_of_mem _ hx))
      ((h0 a List.mem_cons_self).trans (h a List.mem_cons_self))

/-- The estimate from frequencies. -/
def freq (ks : List S) (N : S → ℕ) (s : S) : K := if (ks.map N).sum = 0 then 1 / ks.length else (N s : K) / ((ks.map N).sum : ℕ)

/-- One node. -/
theorem node_best {net : Net V S K} {df : DF V S} {v : V} {par : List V} (hv : v ∈ net.nodes) (hpar : ∀ p ∈ par, p ∈ net.nodes)
    (hks : (statesOf net v).Nodup) {q : S → List S → K}
    (hq : ∀ ps, IsConfig net par ps → (∀ s ∈ statesOf net v, 0 ≤ q s ps) ∧ ((statesOf net v).map fun s => q s ps).sum = 1) :
    ((df.rows.filter fun r => Known net r).map fun r => (r v).elim 1 fun s => q s (par.filterMap r)).prod ≤
      ((df.rows.filter fun r => Known net r).map fun r => (r v).elim 1 fun s =>
        (freq (statesOf net v) (fun s => observed net df v par s (par.filterMap r)) s : K)).prod := by
  set rows := df.rows.filter fun r => Known net r with hrows
  have hknown : ∀ r ∈ rows, Known net r := fun r hr => by simpa using (List.mem_filter.1 hr).2
  have hcover : ∀ r ∈ rows, par.filterMap r ∈ (rows.map fun r => par.filterMap r).dedup := fun r hr =>
    List.mem_dedup.2 (List.mem_map.2 ⟨r, hr, rfl⟩)
  rw [prod_map_group (fun r => par.filterMap r) _ (List.nodup_dedup (rows.map fun r => par.filterMap r)) rows hcover,
    prod_map_group (fun r => par.filterMap r) _ (List.nodup_dedup (rows.map fun r => par.filterMap r)) rows hcover]
  apply prod_map_le
  · intro ps hps
    obtain ⟨r₀, hr₀, rfl⟩ := List.mem_map.1 (List.mem_dedup.1 hps)
    apply prod_map_nonneg
    intro r hr
    have hr' := List.mem_filter.1 hr
    have hk := hknown r hr'.1
    obtain ⟨s, hs, hrs⟩ := hk v hv
    rw [hrs]
    exact (hq _ (filterMap_config hk hpar).1).1 s hs
  intro ps hps
  obtain ⟨r₀, hr₀, he⟩ := List.mem_map.1 (List.mem_dedup.1 hps)
  have hconf : IsConfig net par ps := he ▸ (filterMap_config (hknown r₀ hr₀) hpar).1
  set G := rows.filter fun r => par.filterMap r = ps with hG
  have hGk : ∀ r ∈ G, Known net r ∧ par.filterMap r = ps := fun r hr => by
    have := List.mem_filter.1 hr
    exact ⟨hknown r this.1, by simpa using this.2⟩
  have hmap : ∀ g : S → List S → K, (G.map fun r => (r v).elim 1 fun s => g s (par.filterMap r)).prod =
      ((G.filterMap fun r => r v).map fun s => g s ps).prod := by
    intro g
    clear_value G
    clear hG
    induction G with
    | nil => rfl
    | cons r G ih =>
      obtain ⟨hk, hp⟩ := hGk r List.mem_cons_self
      obtain ⟨s, -, hrs⟩ := hk v hv
      rw [List.filterMap_cons_some (f := fun r : V → Option S => r v) hrs, List.map_cons, List.map_cons, List.prod_cons, List.prod_cons,
        ih fun r hr => hGk r (List.mem_cons_of_mem _ hr), hrs, hp]
      rfl
  have hcount : ∀ s, (G.filterMap fun r => r v).count s = observed net df v par s ps := by
    intro s
    rw [List.count, List.countP_filterMap, hG, hrows, List.countP_filter, List.countP_filter]
    unfold observed
    congr 1
    funext r
    by_cases hk : Known net r
    · obtain ⟨-, h2⟩ := filterMap_config hk hpar
      rw [h2]
      have : (par.filterMap r).map some = ps.map some ↔ par.filterMap r = ps :=
        (List.map_injective_iff.2 (Option.some_injective S)).eq_iff
      cases hrv : r v <;> simp [hk, this, hrv, and_comm, Bool.beq_eq_decide_eq]
    · simp [hk]
  have hmem : ∀ s ∈ G.filterMap (fun r => r v), s ∈ statesOf net v := by
    intro s hs
    obtain ⟨r, hr, hrs⟩ := List.mem_filterMap.1 hs
    obtain ⟨t, ht, hrt⟩ := (hGk r hr).1 v hv
    rw [hrs] at hrt
    cases hrt
    exact ht
  have hlen : (G.filterMap fun r => r v).length = ((statesOf net v).map fun s => observed net df v par s ps).sum := by
    have := sum_map_group (K := ℕ) (id : S → S) (fun _ => 1) hks (G.filterMap fun r => r v) hmem
    rw [List.map_const', List.sum_replicate, nsmul_eq_mul, Nat.cast_id, mul_one] at this
    rw [this]
    congr 1
    apply List.map_congr_left
    intro s _
    rw [← hcount s, List.map_const', List.sum_replicate, nsmul_eq_mul, Nat.cast_id, mul_one, List.count, List.countP_eq_length_filter]
    rfl
  rw [hmap q, hmap fun s ps => freq (statesOf net v) (fun s => observed net df v par s ps) s]
  refine (frequencies_best hks _ hmem (fun s => q s ps) (hq ps hconf).1 (hq ps hconf).2).trans (le_of_eq ?_)
  congr 1
  apply List.map_congr_left
  intro s hs
  have hne : ((statesOf net v).map fun s => observed net df v par s ps).sum ≠ 0 := by
    rw [← hlen]
    intro h0
    rw [List.length_eq_zero_iff] at h0
    rw [h0] at hs
    simp at hs
  unfold freq
  rw [if_neg hne, hcount s, hlen]

/-- No row of the data is impossible under the frequencies. -/
theorem freq_pos {net : Net V S K} {df : DF V S} {v : V} {par : List V} (hv : v ∈ net.nodes) (hpar : ∀ p ∈ par, p ∈ net.nodes)
    {r : V → Option S} (hr : r ∈ df.rows.filter fun r => Known net r) :
    (0 : K) < (r v).elim 1 fun s => freq (statesOf net v) (fun s => observed net df v par s (par.filterMap r)) s := by
  have hk : Known net r := by simpa using (List.mem_filter.1 hr).2
  obtain ⟨s, hs, hrs⟩ := hk v hv
  have hN : 0 < observed net df v par s (par.filterMap r) := by
    unfold observed
    rw [List.countP_pos_iff]
    exact ⟨r, (List.mem_filter.1 hr).1, by simp [hk, hrs, (filterMap_config hk hpar).2]⟩
  have hle : observed net df v par s (par.filterMap r) ≤
      ((statesOf net v).map fun s => observed net df v par s (par.filterMap r)).sum :=
    List.single_le_sum (by simp) _ (List.mem_map.2 ⟨s, hs, rfl⟩)
  rw [hrs]
  simp only [Option.elim_some]
  unfold freq
  rw [if_neg (by omega)]
  refine div_pos (by exact_mod_cast hN) ?_
  exact_mod_cast (show 0 < ((statesOf net v).map fun s => observed net df v par s (par.filterMap r)).sum by omega)

/-- Products of numbers whose products in pairs are at most squares, and when there is equality. -/
theorem prod_mid {β : Type} {l : List β} {f g h : β → K} (hf : ∀ x ∈ l, 0 < f x) (hg : ∀ x ∈ l, 0 < g x)
    (hh : ∀ x ∈ l, f x * g x ≤ h x ^ 2) :
    (l.map f).prod * (l.map g).prod ≤ (l.map h).prod ^ 2 ∧
      ((l.map f).prod * (l.map g).prod = (l.map h).prod ^ 2 → ∀ x ∈ l, f x * g x = h x ^ 2) := by
  induction l with
  | nil => simp
  | cons a l ih =>
    obtain ⟨h1, h2⟩ := ih (fun x hx => hf x (List.mem_cons_of_mem _ hx)) (fun x hx => hg x (List.mem_cons_of_mem _ hx))
      fun x hx => hh x (List.mem_cons_of_mem _ hx)
    have hfa := hf a List.mem_cons_self
    have hga := hg a List.mem_cons_self
    have hha := hh a List.mem_cons_self
    have hF : 0 < (l.map f).prod := prod_map_pos fun x hx => hf x (List.mem_cons_of_mem _ hx)
    have hG : 0 < (l.map g).prod := prod_map_pos fun x hx => hg x (List.mem_cons_of_mem _ hx)
    have hFG := mul_pos hF hG
    have hfg := mul_pos hfa hga
    simp only [List.map_cons, List.prod_cons]
    have e1 : f a * (l.map f).prod * (g a * (l.map g).prod) = (f a * g a) * ((l.map f).prod * (l.map g).prod) := by ring
    have e2 : (h a * (l.map h).prod) ^ 2 = h a ^ 2 * (l.map h).prod ^ 2 := by ring
    rw [e1, e2]
    refine ⟨mul_le_mul hha h1 hFG.le (sq_nonneg _), fun heq => ?_⟩
    have k1 : (l.map f).prod * (l.map g).prod = (l.map h).prod ^ 2 := by
      by_contra hne
      have hlt := lt_of_le_of_ne h1 hne
      have := mul_lt_mul_of_pos_left hlt hfg
      have := mul_le_mul_of_nonneg_right hha (sq_nonneg (l.map h).prod)
      linarith
    have k2 : f a * g a = h a ^ 2 := by
      rw [← k1] at heq
      exact mul_right_cancel₀ hFG.ne' heq
    intro x hx
    rcases List.mem_cons.1 hx with rfl | hx
    · exact k2
    · exact h2 k1 x hx

/-- Two best conditional probabilities agree for the states and states of parents that occur in the data: otherwise their mean would
be better. -/
theorem best_unique {net : Net V S K} {df : DF V S} {parents : V → List V} (hsub : ∀ v ∈ net.nodes, ∀ p ∈ parents v, p ∈ net.nodes)
    {P Q : V → S → List S → K} (hP : IsConditional net parents P) (hQ : IsConditional net parents Q)
    (hpos : 0 < likelihood net parents P df) (hbest : ∀ R, IsConditional net parents R → likelihood net parents R df ≤ likelihood net parents P df)
    (heq : likelihood net parents Q df = likelihood net parents P df) {r : V → Option S} (hr : r ∈ df.rows) (hk : Known net r)
    {v : V} (hv : v ∈ net.nodes) {s : S} (hrs : r v = some s) :
    Q v s ((parents v).filterMap r) = P v s ((parents v).filterMap r) := by
  let R : V → S → List S → K := fun v s ps => (P v s ps + Q v s ps) / 2
  have hR : IsConditional net parents R := by
    intro v hv ps hps
    obtain ⟨p1, p2⟩ := hP v hv ps hps
    obtain ⟨q1, q2⟩ := hQ v hv ps hps
    refine ⟨fun s hs => by have := p1 s hs; have := q1 s hs; positivity, ?_⟩
    simp only [R, div_eq_mul_inv]
    rw [List.sum_map_mul_right, List.sum_map_add, p2, q2]
    norm_num
  have hterm : ∀ (X : V → S → List S → K), IsConditional net parents X → ∀ r ∈ df.rows.filter fun r => Known net r, ∀ v ∈ net.nodes,
      (0 : K) ≤ (r v).elim 1 fun s => X v s ((parents v).filterMap r) := by
    intro X hX r hr v hv
    have hk : Known net r := by simpa using (List.mem_filter.1 hr).2
    obtain ⟨s, hs, hrs⟩ := hk v hv
    rw [hrs]
    exact (hX v hv _ (filterMap_config hk (hsub v hv)).1).1 s hs
  -- the factors of a positive product of nonnegative numbers are positive
  have posfac : ∀ {β : Type} {l : List β} {f : β → K}, (∀ x ∈ l, 0 ≤ f x) → 0 < (l.map f).prod → ∀ x ∈ l, 0 < f x := by
    intro β l f h0 hp x hx
    refine lt_of_le_of_ne (h0 x hx) fun h => ?_
    have : (l.map f).prod = 0 := List.prod_eq_zero (List.mem_map.2 ⟨x, hx, h.symm⟩)
    exact hp.ne' this
  have hrow0 : ∀ (X : V → S → List S → K), IsConditional net parents X → ∀ r ∈ df.rows.filter fun r => Known net r,
      0 ≤ rowLikelihood net.nodes parents X r := fun X hX r hr => prod_map_nonneg (hterm X hX r hr)
  have hposQ : 0 < likelihood net parents Q df := by rw [heq]; exact hpos
  have hrowP := posfac (hrow0 P hP) hpos
  have hrowQ := posfac (hrow0 Q hQ) hposQ
  have hmid : ∀ r ∈ df.rows.filter fun r => Known net r,
      rowLikelihood net.nodes parents P r * rowLikelihood net.nodes parents Q r ≤ rowLikelihood net.nodes parents R r ^ 2 ∧
      (rowLikelihood net.nodes parents P r * rowLikelihood net.nodes parents Q r = rowLikelihood net.nodes parents R r ^ 2 →
        ∀ v ∈ net.nodes, ((r v).elim 1 fun s => P v s ((parents v).filterMap r)) * ((r v).elim 1 fun s => Q v s ((parents v).filterMap r)) =
          ((r v).elim 1 fun s => R v s ((parents v).filterMap r)) ^ 2) := by
    intro r hr
    refine prod_mid (posfac (hterm P hP r hr) (hrowP r hr)) (posfac (hterm Q hQ r hr) (hrowQ r hr)) fun v hv => ?_
    cases hx : r v with
    | none => simp
    | some s =>
      simp only [Option.elim_some, R]
      nlinarith [sq_nonneg (P v s ((parents v).filterMap r) - Q v s ((parents v).filterMap r))]
  obtain ⟨m1, m2⟩ := prod_mid hrowP hrowQ fun r hr => (hmid r hr).1
  have hRle := hbest R hR
  have hR0 : 0 ≤ likelihood net parents R df := prod_map_nonneg (hrow0 R hR)
  have hall := m2 (le_antisymm m1 (by
    change likelihood net parents R df ^ 2 ≤ likelihood net parents P df * likelihood net parents Q df
    rw [heq, ← sq]
    exact pow_le_pow_left₀ hR0 hRle 2))
  have hrm : r ∈ df.rows.filter fun r => Known net r := List.mem_filter.2 ⟨hr, by simpa using hk⟩
  have := (hmid r hrm).2 (hall r hrm) v hv
  rw [hrs] at this
  simp only [Option.elim_some, R] at this
  have h0 : (P v s ((parents v).filterMap r) - Q v s ((parents v).filterMap r)) ^ 2 = 0 := by linarith
  exact (sub_eq_zero.1 (pow_eq_zero_iff (two_ne_zero) |>.1 h0)).symm

/-- **C104.** The tables that `fit_cpds(data, "MaximumLikelihoodEstimator")` computes give the data a probability at least as large
as any other conditional probabilities for the same structure and states do; that probability is positive.  Other conditional probabilities
give the data the same probability exactly if they are the same for all states of the parents that occur in the data. -/
theorem fit_maximises_likelihood {int : ℕ → S} (hint : Injective int) {ns : List V} {E : List (V × V)}
    (hE : IsStructure ns E) {net net' : Net V S K} (hr : Reach int ns E net)
    (hne : ∀ v ∈ net.nodes, statesOf net v ≠ []) {h h' : Heap V S} {ref : ℕ} {df : DF V S}
    (hdf : h[ref]? = some df) {a : FitArgs K} (ha : a.method = "MaximumLikelihoodEstimator")
    (hf : fitCpds int net h ref a = (net', h', .ok ())) :
    ∃ (tables : List (V × Table V S K)) (parents : V → List V) (P : V → S → List S → K),
      cpds net' = .ok tables ∧ tables.map Prod.fst = net.nodes ∧
      (∀ v t, (v, t) ∈ tables → t.parents = parents v ∧ IsParentList E v (parents v) ∧
        ∀ s ∈ statesOf net v, ∀ ps, IsConfig net (parents v) ps → t.entry s ps = some (P v s ps)) ∧
      IsConditional net parents P ∧ 0 < likelihood net parents P df ∧
      ∀ Q, IsConditional net parents Q → likelihood net parents Q df ≤ likelihood net parents P df ∧
        (likelihood net parents Q df = likelihood net parents P df ↔
          ∀ v ∈ net.nodes, ∀ r ∈ df.rows, Known net r → ∀ s ∈ statesOf net v,
            Q v s ((parents v).filterMap r) = P v s ((parents v).filterMap r)) := by
  obtain ⟨-, -, -, tables, h1, h2, h3⟩ := fit_cpds_correct hint hE hr hne hdf hf
  have hw := hr.wf hE
  obtain ⟨states, -, -, hst, -⟩ := fitCpds_ok hw hf
  have hks : ∀ v, (statesOf net v).Nodup := fun v => by
    rw [statesOf_eq hst]
    exact keysOf_nodup (hw.encWF hst) v
  have hnd : (tables.map Prod.fst).Nodup := by
    rw [h2, hw.nodes]
    exact nodesOfEdges_nodup E
  let parents : V → List V := fun v => ((tables.lookup v).map fun t => t.parents).getD []
  have hpar : ∀ v t, (v, t) ∈ tables → t.parents = parents v := by
    intro v t ht
    simp only [parents]
    rw [Verif.BBN.lookup_of_mem_nodup hnd ht]
    rfl
  have hlist : ∀ v ∈ net.nodes, IsParentList E v (parents v) := by
    intro v hv
    rw [← h2] at hv
    obtain ⟨⟨v', t⟩, ht, rfl⟩ := List.mem_map.1 hv
    rw [← hpar _ t ht]
    exact (h3 _ t ht).2.1
  have hsub : ∀ v ∈ net.nodes, ∀ p ∈ parents v, p ∈ net.nodes := by
    intro v hv p hp
    rw [hw.nodes, mem_nodesOfEdges]
    exact ⟨(p, v), ((hlist v hv).2 p).1 hp, Or.inl rfl⟩
  let P : V → S → List S → K := fun v s ps => freq (statesOf net v) (fun s => observed net df v (parents v) s ps) s
  have hcond : IsConditional net parents P := by
    intro v hv ps _
    have := estimate_prob (K := K) (a := { method := "MaximumLikelihoodEstimator", prior := none, ess := none }) (by simp) (Or.inl rfl)
      (hne v hv) (cfgs := 1) one_pos fun s => observed net df v (parents v) s ps
    unfold estimate at this
    simp only [if_true] at this
    exact ⟨fun s _ => this.1 s, this.2⟩
  have hpos : 0 < likelihood net parents P df := by
    unfold likelihood
    rw [rows_prod_comm]
    exact prod_map_pos fun v hv => prod_map_pos fun r hr' => freq_pos hv (hsub v hv) hr'
  have hbest : ∀ Q, IsConditional net parents Q → likelihood net parents Q df ≤ likelihood net parents P df := by
    intro Q hQ
    unfold likelihood
    rw [rows_prod_comm, rows_prod_comm]
    apply prod_map_le
    · intro v hv
      apply prod_map_nonneg
      intro r hr'
      have hk : Known net r := by simpa using (List.mem_filter.1 hr').2
      obtain ⟨s, hs, hrs⟩ := hk v hv
      rw [hrs]
      exact (hQ v hv _ (filterMap_config hk (hsub v hv)).1).1 s hs
    · intro v hv
      exact node_best hv (hsub v hv) (hks v) (hQ v hv)
  refine ⟨tables, parents, P, h1, h2, ?_, hcond, hpos, fun Q hQ => ⟨hbest Q hQ, fun heq v hv r hr' hk => ?_, fun hall => ?_⟩⟩
  · intro v t ht
    have hv : v ∈ net.nodes := by
      rw [← h2]
      exact List.mem_map_of_mem ht
    refine ⟨hpar v t ht, hlist v hv, ?_⟩
    intro s hs ps hps
    obtain ⟨-, -, -, -, h4⟩ := h3 v t ht
    change t.entry s ps = some (freq (statesOf net v) (fun s => observed net df v (parents v) s ps) s)
    rw [← hpar v t ht] at hps ⊢
    rw [h4 s hs ps hps]
    unfold estimate freq
    simp only [if_pos ha]
  · have hcfg := filterMap_config hk (hsub v hv)
    have hsum : ((statesOf net v).map fun s => observed net df v (parents v) s ((parents v).filterMap r)).sum ≠ 0 := by
      obtain ⟨s, hs, hrs⟩ := hk v hv
      have hN : 0 < observed net df v (parents v) s ((parents v).filterMap r) := by
        unfold observed
        rw [List.countP_pos_iff]
        exact ⟨r, hr', by simp [hk, hrs, hcfg.2]⟩
      have := List.single_le_sum (by simp) _ (List.mem_map.2 ⟨s, hs, rfl⟩ :
        observed net df v (parents v) s ((parents v).filterMap r) ∈
          (statesOf net v).map fun s => observed net df v (parents v) s ((parents v).filterMap r))
      omega
    have hle : ∀ s ∈ statesOf net v, P v s ((parents v).filterMap r) ≤ Q v s ((parents v).filterMap r) := by
      intro s hs
      by_cases h0 : observed net df v (parents v) s ((parents v).filterMap r) = 0
      · have : P v s ((parents v).filterMap r) = 0 := by
          simp only [P]
          unfold freq
          rw [if_neg hsum]
          dsimp only
          rw [h0, Nat.cast_zero, zero_div]
        rw [this]
        exact (hQ v hv _ hcfg.1).1 s hs
      · obtain ⟨r', hr1, hr2⟩ := List.countP_pos_iff.1 (Nat.pos_of_ne_zero h0)
        rw [decide_eq_true_eq] at hr2
        obtain ⟨hk', hrs, hps⟩ := hr2
        have hc : (parents v).filterMap r' = (parents v).filterMap r := by
          apply List.map_injective_iff.2 (Option.some_injective S)
          rw [← hps]
          exact (filterMap_config hk' (hsub v hv)).2.symm
        have := best_unique hsub hcond hQ hpos hbest heq hr1 hk' hv hrs
        rw [hc] at this
        exact this.ge
    intro s hs
    refine le_antisymm (not_lt.1 fun hlt => ?_) (hle s hs)
    have := List.sum_lt_sum _ _ hle ⟨s, hs, hlt⟩
    rw [(hcond v hv _ hcfg.1).2, (hQ v hv _ hcfg.1).2] at this
    exact lt_irrefl _ this
  · unfold likelihood
    congr 1
    apply List.map_congr_left
    intro r hr'
    have hk : Known net r := by simpa using (List.mem_filter.1 hr').2
    unfold rowLikelihood
    congr 1
    apply List.map_congr_left
    intro v hv
    obtain ⟨s, hs, hrs⟩ := hk v hv
    rw [hrs]
    exact hall v hv r (List.mem_filter.1 hr').1 hk s hs

end

/-! ### Example -/

open Witness in
/-- C104 applies to the network of the other examples. -/
example := fit_maximises_likelihood int_injective isStructure reach₁ nonempty₁ (h := [df]) (ref := 0) (df := df) rfl rfl fit_eq

open Witness in
/-- There the fitted tables give the data the probability 4/27, equal probabilities for all states only 1/64. -/
example : likelihood net₁ (fun v => if v = 1 then [0] else []) (fun v s ps =>
      freq (statesOf net₁ v) (fun s => observed net₁ df v (if v = 1 then [0] else []) s ps) s) df = 4 / 27 ∧
    likelihood net₁ (fun v => if v = 1 then [0] else []) (fun _ _ _ => 1 / 2) df = 1 / 64 := by decide +kernel

end Verif.Network
