import Verif.Evaluation.Props

/-!
# C162: what the extreme values of `roc_auc` mean
-/

namespace Verif.Evaluation

open Verif.Network Verif.Str

section
variable {S K : Type} [LinearOrder S] [Field K] [LinearOrder K]

/-! ### Specification -/

/-- Specification: `R x y` holds for the probability `x` that the table `t` gives to the true state of `v` in any row, and the probability `y`
that it gives to a state which is not the true one, in the same or in another row. -/
def TrueFalse (t : Table Str S K) (v : Str) (states : List S) (rows : List (Str → Option S)) (R : K → K → Prop) : Prop :=
  ∀ r ∈ rows, ∀ s ∈ states, r v = some s → ∀ r' ∈ rows, ∀ s' ∈ states, r' v ≠ some s' →
    ∀ ps ps' x y, t.parents.map r = ps.map some → t.parents.map r' = ps'.map some → t.entry s ps = some x → t.entry s' ps' = some y → R x y

variable [IsStrictOrderedRing K]

/-! ### Rank probabilities -/

theorem sum_zero_iff {l : List K} (h : ∀ x ∈ l, 0 ≤ x) : l.sum = 0 ↔ ∀ x ∈ l, x = 0 := by
  induction l with
  | nil => simp
  | cons x l ih =>
    have hl : ∀ x ∈ l, 0 ≤ x := fun y hy => h y (List.mem_cons_of_mem _ hy)
    rw [List.sum_cons, add_eq_zero_iff_of_nonneg (h x List.mem_cons_self) (List.sum_nonneg hl), ih hl, List.forall_mem_cons]

theorem double_sum_zero_iff {l m : List K} {f : K → K → K} (h : ∀ x y, 0 ≤ f x y) :
    (l.map fun x => (m.map fun y => f x y).sum).sum = 0 ↔ ∀ x ∈ l, ∀ y ∈ m, f x y = 0 := by
  have h1 : ∀ x, ∀ z ∈ m.map fun y => f x y, 0 ≤ z := by
    intro x z hz
    obtain ⟨y, -, rfl⟩ := List.mem_map.1 hz
    exact h x y
  rw [sum_zero_iff]
  · constructor
    · intro H x hx y hy
      exact (sum_zero_iff (h1 x)).1 (H _ (List.mem_map_of_mem hx)) _ (List.mem_map_of_mem hy)
    · intro H z hz
      obtain ⟨x, hx, rfl⟩ := List.mem_map.1 hz
      refine (sum_zero_iff (h1 x)).2 fun z hz => ?_
      obtain ⟨y, hy, rfl⟩ := List.mem_map.1 hz
      exact H x hx y hy
  · intro z hz
    obtain ⟨x, -, rfl⟩ := List.mem_map.1 hz
    exact List.sum_nonneg (h1 x)

theorem double_sum_const (l m : List K) (c : K) : (l.map fun _ => (m.map fun _ => c).sum).sum = l.length * m.length * c := by
  simp [List.sum_replicate, mul_assoc]

theorem double_sum_sub (l m : List K) (f g : K → K → K) : (l.map fun x => (m.map fun y => f x y - g x y).sum).sum =
    (l.map fun x => (m.map fun y => f x y).sum).sum - (l.map fun x => (m.map fun y => g x y).sum).sum := by
  have h : ∀ (l : List K) (f g : K → K), (l.map fun x => f x - g x).sum = (l.map f).sum - (l.map g).sum := by
    intro l f g
    induction l with
    | nil => simp
    | cons x l ih =>
      rw [List.map_cons, List.map_cons, List.map_cons, List.sum_cons, List.sum_cons, List.sum_cons, ih]
      ring
  simp only [h]

theorem wins_range (p n : K) : 0 ≤ wins p n ∧ 0 ≤ 1 - wins p n ∧ (wins p n = 0 ↔ p < n) ∧ (1 - wins p n = 0 ↔ n < p) := by
  unfold wins
  rcases lt_trichotomy n p with h | h | h
  · rw [if_pos h]
    exact ⟨by norm_num, by norm_num, by simp [not_lt.2 h.le], by simp [h]⟩
  · subst h
    rw [if_neg (lt_irrefl _), if_pos rfl]
    exact ⟨by norm_num, by norm_num, by simp, by norm_num⟩
  · rw [if_neg (not_lt.2 h.le), if_neg h.ne']
    exact ⟨le_rfl, by norm_num, by simp [h], by simp [not_lt.2 h.le]⟩

theorem rankProbability_extremes {pos neg : List K} (hp : pos ≠ []) (hn : neg ≠ []) :
    (rankProbability pos neg = 1 ↔ ∀ p ∈ pos, ∀ n ∈ neg, n < p) ∧ (rankProbability pos neg = 0 ↔ ∀ p ∈ pos, ∀ n ∈ neg, p < n) ∧
    ((∀ p ∈ pos, ∀ n ∈ neg, n = p) → rankProbability pos neg = 1 / 2) := by
  have hl : (0 : K) < pos.length * neg.length := by
    have h1 : (0 : K) < pos.length := by exact_mod_cast List.length_pos_iff.2 hp
    have h2 : (0 : K) < neg.length := by exact_mod_cast List.length_pos_iff.2 hn
    positivity
  unfold rankProbability
  refine ⟨?_, ?_, fun h => ?_⟩
  · rw [div_eq_one_iff_eq hl.ne', eq_comm, ← sub_eq_zero]
    have := double_sum_sub pos neg (fun _ _ => 1) wins
    rw [double_sum_const, mul_one] at this
    rw [← this, double_sum_zero_iff fun p n => (wins_range p n).2.1]
    simp only [(wins_range _ _).2.2.2]
  · rw [div_eq_zero_iff, or_iff_left hl.ne', double_sum_zero_iff fun p n => (wins_range p n).1]
    simp only [(wins_range _ _).2.2.1]
  · have : (pos.map fun p => (neg.map fun n => wins p n).sum) = pos.map fun _ => (neg.map fun _ => (1 / 2 : K)).sum := by
      refine List.map_congr_left fun p hp => congrArg List.sum (List.map_congr_left fun n hn => ?_)
      rw [h p hp n hn, wins, if_neg (lt_irrefl _), if_pos rfl]
    rw [this, double_sum_const, mul_div_cancel_left₀ _ hl.ne']

/-! ### Scores -/

omit [IsStrictOrderedRing K] in
theorem mem_scoresOf {t : Table Str S K} {v : Str} {states : List S} {rows : List (Str → Option S)} {P : List (List K)}
    (h : List.Forall₂ (fun r p => ∃ ps, t.parents.map r = ps.map some ∧ List.Forall₂ (fun s x => t.entry s ps = some x) states p) rows P)
    (b : Bool) (x : K) : x ∈ scoresOf v states rows P b ↔ ∃ r ∈ rows, ∃ s ∈ states, decide (r v = some s) = b ∧
      ∃ ps, t.parents.map r = ps.map some ∧ t.entry s ps = some x := by
  unfold scoresOf
  induction h with
  | nil => simp
  | @cons r p rows P hrp _ ih =>
    rw [List.zip_cons_cons, List.flatMap_cons, List.mem_append, ih]
    have : x ∈ ((states.zip p).filter fun e => decide (decide (r v = some e.1) = b)).map (·.2) ↔
        ∃ s ∈ states, decide (r v = some s) = b ∧ ∃ ps, t.parents.map r = ps.map some ∧ t.entry s ps = some x := by
      obtain ⟨ps, hps, hsx⟩ := hrp
      have huniq : ∀ ps', t.parents.map r = ps'.map some → ps' = ps := fun ps' h' =>
        List.map_injective_iff.2 (Option.some_injective S) (h'.symm.trans hps)
      have key : ∀ (states : List S) (p : List K), List.Forall₂ (fun s x => t.entry s ps = some x) states p →
          (x ∈ ((states.zip p).filter fun e => decide (decide (r v = some e.1) = b)).map (·.2) ↔
            ∃ s ∈ states, decide (r v = some s) = b ∧ t.entry s ps = some x) := by
        intro states p h
        induction h with
        | nil => simp
        | @cons s y states p hy _ ih2 =>
          rw [List.zip_cons_cons, List.filter_cons, List.exists_mem_cons_iff, ← ih2]
          by_cases hb : decide (r v = some s) = b
          · rw [if_pos (by simpa using hb), List.map_cons, List.mem_cons, hy, Option.some_inj, eq_comm]
            simp [hb]
          · rw [if_neg (by simpa using hb)]
            simp [hb]
      rw [key states p hsx]
      refine exists_congr fun s => and_congr_right fun _ => and_congr_right fun _ => ?_
      exact ⟨fun h => ⟨ps, hps, h⟩, fun ⟨ps', h', h⟩ => huniq ps' h' ▸ h⟩
    rw [this, List.exists_mem_cons_iff]

omit [IsStrictOrderedRing K] in
theorem trueFalse_iff {t : Table Str S K} {v : Str} {states : List S} {rows : List (Str → Option S)} {P : List (List K)}
    (h : List.Forall₂ (fun r p => ∃ ps, t.parents.map r = ps.map some ∧ List.Forall₂ (fun s x => t.entry s ps = some x) states p) rows P)
    (R : K → K → Prop) : (∀ x ∈ scoresOf v states rows P true, ∀ y ∈ scoresOf v states rows P false, R x y) ↔ TrueFalse t v states rows R := by
  simp only [mem_scoresOf h, decide_eq_true_eq, decide_eq_false_iff_not]
  constructor
  · intro H r hr s hs hv r' hr' s' hs' hv' ps ps' x y hps hps' hx hy
    exact H x ⟨r, hr, s, hs, hv, ps, hps, hx⟩ y ⟨r', hr', s', hs', hv', ps', hps', hy⟩
  · rintro H x ⟨r, hr, s, hs, hv, ps, hps, hx⟩ y ⟨r', hr', s', hs', hv', ps', hps', hy⟩
    exact H r hr s hs hv r' hr' s' hs' hv' ps ps' x y hps hps' hx hy

omit [IsStrictOrderedRing K] in
theorem scoresOf_ne_nil {t : Table Str S K} {v : Str} {states : List S} {rows : List (Str → Option S)} {P : List (List K)}
    (h : List.Forall₂ (fun r p => ∃ ps, t.parents.map r = ps.map some ∧ List.Forall₂ (fun s x => t.entry s ps = some x) states p) rows P)
    (b : Bool) {r : Str → Option S} (hr : r ∈ rows) {s : S} (hs : s ∈ states) (hb : decide (r v = some s) = b) :
    scoresOf v states rows P b ≠ [] := by
  obtain ⟨p, ps, hps, hF⟩ : ∃ p ps, t.parents.map r = ps.map some ∧ List.Forall₂ (fun s x => t.entry s ps = some x) states p := by
    clear hb hs
    induction h with
    | nil => simp at hr
    | @cons r' p rows P hrp _ ih =>
      rcases List.mem_cons.1 hr with rfl | hr
      · exact ⟨p, hrp⟩
      · exact ih hr
  obtain ⟨x, hx⟩ : ∃ x, t.entry s ps = some x := by
    clear h hb
    induction hF with
    | nil => simp at hs
    | @cons s' x states p hx _ ih =>
      rcases List.mem_cons.1 hs with rfl | hs
      · exact ⟨x, hx⟩
      · exact ih hs
  exact List.ne_nil_of_mem ((mem_scoresOf h b x).2 ⟨r, hr, s, hs, hb, ps, hps, hx⟩)

/-! ### The theorem -/

/-- **C162** (under the condition of C33 that the labels are ordered like the states). The area which `roc_auc` returns is 1 exactly if every
probability of a true state is greater than every probability of a state which is not true, in whatever rows; it is 0 exactly if every
probability of a true state is less; and it is 1/2 if all these probabilities are equal. -/
theorem rocAuc_extremes {int : ℕ → S} (hint : Function.Injective int) {ns : List Str}
    {E : List (Str × Str)} (hE : IsStructure ns E) {net net' : Net Str S K} (hr : Reach int ns E net)
    (hne : ∀ v ∈ net.nodes, statesOf net v ≠ []) {h₀ h₁ : Heap Str S} {ref₀ : ℕ} {a : FitArgs K}
    (hf : fitCpds int net h₀ ref₀ a = (net', h₁, .ok ()))
    {tables : List (Str × Table Str S K)} (hc : cpds net' = .ok tables) {v : Str} {t : Table Str S K}
    (ht : (v, t) ∈ tables) {h : Heap Str S} {ref : ℕ} {df : DF Str S} (hdf : h[ref]? = some df)
    (hcols : ∀ p ∈ v :: t.parents, p ∈ df.cols)
    (hk : ∀ r ∈ df.rows, ∀ p ∈ v :: t.parents, ∃ s ∈ statesOf net p, r p = some s)
    (oracle : DF Str S → DF Str S) (pattern : Str → Except Err (Str → Bool)) {num : K → S} {toNum : S → Option K}
    (hnum : ∀ x, toNum (num x) = some x) (str : S → Str)
    {order order' : List S} (hord : order.Perm (statesOf net v)) (hord' : order'.Perm (statesOf net v))
    (hcoll : ∀ s ∈ statesOf net v, fmtName str v s ∉ t.parents)
    (hlab : (statesOf net v).Pairwise fun s s' => label str v s < label str v s')
    (hrows : df.rows ≠ []) (htwo : 2 ≤ (statesOf net v).length) :
    ∃ h' curve area, rocAuc oracle pattern int num toNum str order order' net' h ref v = (h', .ok (curve, some area)) ∧
      (area = 1 ↔ TrueFalse t v (statesOf net v) df.rows fun x y => y < x) ∧
      (area = 0 ↔ TrueFalse t v (statesOf net v) df.rows fun x y => x < y) ∧
      (TrueFalse t v (statesOf net v) df.rows (fun x y => y = x) → area = 1 / 2) := by
  obtain ⟨h', P, pts, -, hP, hroc, -⟩ := rocAuc_correct_partial hint hE hr hne hf hc ht hdf hcols hk oracle pattern hnum str hord hord' hcoll
    hlab hrows htwo
  have hnd : (statesOf net v).Nodup := (fitted_states hint hE hr hne hf hc ht).1.imp ne_of_lt
  obtain ⟨r, hr⟩ := List.exists_mem_of_ne_nil _ hrows
  obtain ⟨s, hs, hrs⟩ := hk r hr v List.mem_cons_self
  obtain ⟨s', hs', hss⟩ : ∃ s' ∈ statesOf net v, s' ≠ s := by
    by_contra H
    push Not at H
    have : (statesOf net v).length ≤ [s].length := (hnd.subperm fun x hx => by simp [H x hx]).length_le
    simp at this
    omega
  obtain ⟨e1, e2, e3⟩ := rankProbability_extremes (scoresOf_ne_nil (v := v) hP true hr hs (by simpa using hrs))
    (scoresOf_ne_nil (v := v) hP false hr hs' (by simpa [hrs] using hss.symm))
  refine ⟨h', _, _, hroc, ?_, ?_, fun H => ?_⟩
  · rw [e1]
    exact trueFalse_iff hP fun x y => y < x
  · rw [e2]
    exact trueFalse_iff hP fun x y => x < y
  · exact e3 ((trueFalse_iff hP fun x y => y = x).2 H)

end

end Verif.Evaluation
