import Verif.Evaluation.Witness

/-!
# C163: what the scores of `classification_report` can be
-/

namespace Verif.Evaluation

open Verif.Network Verif.Str

section
variable {S K : Type} [LinearOrder S] [Field K] [LinearOrder K] [IsStrictOrderedRing K]

theorem countP_and_eq_iff {α : Type} (l : List α) (P Q : α → Bool) :
    l.countP (fun x => P x && Q x) ≤ l.countP Q ∧ (l.countP (fun x => P x && Q x) = l.countP Q ↔ ∀ x ∈ l, Q x = true → P x = true) := by
  induction l with
  | nil => simp
  | cons x l ih =>
    obtain ⟨h1, h2⟩ := ih
    rw [List.countP_cons, List.countP_cons, List.forall_mem_cons, ← h2]
    cases P x <;> cases Q x <;> simp <;> omega

theorem fraction_range {a b : ℕ} (h : a ≤ b) : 0 ≤ (fraction a b : K) ∧ (fraction a b : K) ≤ 1 ∧ ((fraction a b : K) = 0 ↔ a = 0) ∧
    ((fraction a b : K) = 1 ↔ b ≠ 0 ∧ a = b) := by
  unfold fraction
  by_cases hb : b = 0
  · rw [if_pos hb]
    exact ⟨le_rfl, zero_le_one, by simp; omega, by simp [hb]⟩
  · rw [if_neg hb]
    have h0 : (0 : K) < b := by exact_mod_cast Nat.pos_of_ne_zero hb
    refine ⟨by positivity, ?_, ?_, ?_⟩
    · rw [div_le_one h0]
      exact_mod_cast h
    · rw [div_eq_zero_iff, or_iff_left h0.ne']
      exact_mod_cast Iff.rfl
    · rw [div_eq_one_iff_eq h0.ne']
      simp [hb]

theorem f1_range {p r : K} (hp : 0 ≤ p) (hr : 0 ≤ r) :
    min p r ≤ (if p + r = 0 then 0 else 2 * p * r / (p + r)) ∧ (if p + r = 0 then 0 else 2 * p * r / (p + r)) ≤ max p r := by
  by_cases h : p + r = 0
  · rw [if_pos h]
    exact ⟨(min_le_left _ _).trans (by linarith), hp.trans (le_max_left _ _)⟩
  · rw [if_neg h]
    have h0 : 0 < p + r := lt_of_le_of_ne (add_nonneg hp hr) (Ne.symm h)
    rw [le_div_iff₀ h0, div_le_iff₀ h0]
    rcases le_total p r with hl | hl
    · rw [min_eq_left hl, max_eq_right hl]
      constructor <;> nlinarith
    · rw [min_eq_right hl, max_eq_left hl]
      constructor <;> nlinarith

/-- **C163**: for complete data, and with the predictions `pred` (a most likely state for each row), all scores of a state in the report lie
between 0 and 1, and F1 lies between precision and recall.  Precision is 1 exactly if the state is predicted somewhere, and is the true one
wherever it is predicted; recall is 1 exactly if the state occurs, and is predicted wherever it is the true one; and each of the three is 0
exactly if the state is nowhere both predicted and true. -/
theorem classificationReport_bounds {int : ℕ → S} (hint : Function.Injective int) {ns : List Str}
    {E : List (Str × Str)} (hE : IsStructure ns E) {net net' : Net Str S K} (hr : Reach int ns E net)
    (hne : ∀ v ∈ net.nodes, statesOf net v ≠ []) {h₀ h₁ : Heap Str S} {ref₀ : ℕ} {a : FitArgs K}
    (hf : fitCpds int net h₀ ref₀ a = (net', h₁, .ok ()))
    {tables : List (Str × Table Str S K)} (hc : cpds net' = .ok tables) {v : Str} {t : Table Str S K}
    (ht : (v, t) ∈ tables) {h : Heap Str S} {ref : ℕ} {df : DF Str S} (hdf : h[ref]? = some df)
    (hcols : ∀ p ∈ v :: t.parents, p ∈ df.cols)
    (hk : ∀ r ∈ df.rows, ∀ p ∈ v :: t.parents, ∃ s ∈ statesOf net p, r p = some s)
    (oracle : DF Str S → List ℕ) (predName : Str → Str) {str : S → Str}
    (hstr : ∀ s ∈ statesOf net v, ∀ s' ∈ statesOf net v, str s = str s' → s = s')
    {order order' : List S} (hord : order.Perm (statesOf net v)) (hord' : order'.Perm (statesOf net v)) (acc : Bool) :
    ∃ (h' : Heap Str S) (pred : List S) (report : List (Str × Entry K)),
      List.Forall₂ (fun r s => s ∈ statesOf net v ∧ ∃ ps x, t.parents.map r = ps.map some ∧
        t.entry s ps = some x ∧ ∀ s' ∈ statesOf net v, ∃ y, t.entry s' ps = some y ∧ y ≤ x ∧ (s' < s → y < x))
        df.rows pred ∧
      classificationReport oracle int predName str order order' acc net' h ref v = (h', .ok report) ∧
      ∀ s ∈ statesOf net v, ∃ e, Dict.get? report (fmtName str v s) = some (.scores e) ∧
        0 ≤ e.precision ∧ e.precision ≤ 1 ∧ 0 ≤ e.recall ∧ e.recall ≤ 1 ∧
        min e.precision e.recall ≤ e.f1 ∧ e.f1 ≤ max e.precision e.recall ∧
        (e.precision = 1 ↔ s ∈ pred ∧ ∀ q ∈ df.rows.zip pred, q.2 = s → q.1 v = some s) ∧
        (e.recall = 1 ↔ (∃ r ∈ df.rows, r v = some s) ∧ ∀ q ∈ df.rows.zip pred, q.1 v = some s → q.2 = s) ∧
        (e.precision = 0 ↔ ∀ q ∈ df.rows.zip pred, q.2 = s → q.1 v ≠ some s) ∧
        (e.recall = 0 ↔ ∀ q ∈ df.rows.zip pred, q.2 = s → q.1 v ≠ some s) ∧
        (e.f1 = 0 ↔ ∀ q ∈ df.rows.zip pred, q.2 = s → q.1 v ≠ some s) := by
  obtain ⟨h', pred, report, -, hP, hrep, hs⟩ := classificationReport_correct hint hE hr hne hf hc ht hdf hcols hk oracle predName hstr hord
    hord' acc
  refine ⟨h', pred, report, hP, hrep, fun s hsm => ?_⟩
  obtain ⟨e, hget, -, hp, hre, hf1⟩ := hs s hsm
  have hlen := hP.length_eq
  have c1 : pred.countP (· = s) = (df.rows.zip pred).countP fun q => decide (q.2 = s) := by
    conv_lhs => rw [← List.map_snd_zip (l₁ := df.rows) (l₂ := pred) hlen.ge, List.countP_map]
    rfl
  have c2 : (df.rows.countP fun r => r v = some s) = (df.rows.zip pred).countP fun q => decide (q.1 v = some s) := by
    conv_lhs => rw [← List.map_fst_zip (l₁ := df.rows) (l₂ := pred) hlen.le, List.countP_map]
    rfl
  obtain ⟨l1, i1⟩ := countP_and_eq_iff (df.rows.zip pred) (fun q => decide (q.1 v = some s)) (fun q => decide (q.2 = s))
  obtain ⟨l2, i2⟩ := countP_and_eq_iff (df.rows.zip pred) (fun q => decide (q.2 = s)) (fun q => decide (q.1 v = some s))
  have a1 : ((df.rows.zip pred).countP fun q => decide (q.1 v = some s ∧ q.2 = s)) =
      (df.rows.zip pred).countP fun q => decide (q.1 v = some s) && decide (q.2 = s) := by simp only [Bool.decide_and]
  have a2 : ((df.rows.zip pred).countP fun q => decide (q.1 v = some s ∧ q.2 = s)) =
      (df.rows.zip pred).countP fun q => decide (q.2 = s) && decide (q.1 v = some s) := by simp only [Bool.decide_and, Bool.and_comm]
  rw [← a1, ← c1] at l1 i1
  rw [← a2, ← c2] at l2 i2
  obtain ⟨p0, p1, pz, po⟩ := fraction_range (K := K) l1
  obtain ⟨r0, r1, rz, ro⟩ := fraction_range (K := K) l2
  rw [← hp] at p0 p1 pz po
  rw [← hre] at r0 r1 rz ro
  have hz : (df.rows.zip pred).countP (fun q => decide (q.1 v = some s ∧ q.2 = s)) = 0 ↔
      ∀ q ∈ df.rows.zip pred, q.2 = s → q.1 v ≠ some s := by
    rw [List.countP_eq_zero]
    refine forall₂_congr fun q _ => ?_
    rw [decide_eq_true_eq]
    exact ⟨fun h h1 h2 => h ⟨h2, h1⟩, fun h h' => h h'.2 h'.1⟩
  obtain ⟨f0, f1⟩ := f1_range p0 r0
  rw [← hf1] at f0 f1
  refine ⟨e, hget, p0, p1, r0, r1, f0, f1, ?_, ?_, pz.trans hz, rz.trans hz, ?_⟩
  · rw [po, i1, ← Nat.pos_iff_ne_zero, List.countP_pos_iff]
    simp
  · rw [ro, i2, ← Nat.pos_iff_ne_zero, List.countP_pos_iff]
    simp
  · rw [← hz, ← pz]
    constructor
    · intro h
      by_contra hn
      have hrn : e.recall ≠ 0 := fun hh => hn (pz.2 (rz.1 hh))
      have hpos : 0 < min e.precision e.recall := lt_min (lt_of_le_of_ne p0 (Ne.symm hn)) (lt_of_le_of_ne r0 (Ne.symm hrn))
      linarith
    · intro h
      have h2 : e.recall = 0 := rz.2 (pz.1 h)
      rw [h, h2, min_self] at f0
      rw [h, h2, max_self] at f1
      exact le_antisymm f1 f0

end

namespace Witness

/-- The theorem applies to data with a wrong prediction (`test_report` shows the report). -/
example := classificationReport_bounds int_injective isStructure reach₁ nonempty fit_ok cpds_ok
  (v := ['n']) (t := tab) (by simp [tabs]) (h := [test]) (ref := 0) (df := test) rfl
  (by decide +kernel) (by decide +kernel) (fun _ => []) (fun v => v ++ ['_', 'p']) (str := numStr) (by decide +kernel)
  (order := [2, 3]) (order' := [3, 2]) (by decide +kernel) (by decide +kernel) true

end Witness

end Verif.Evaluation
