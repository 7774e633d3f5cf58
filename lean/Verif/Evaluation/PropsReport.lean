import Verif.Evaluation.Props
import Mathlib.Algebra.BigOperators.Ring.Finset
import Mathlib.Tactic.Ring
import Mathlib.Tactic.FieldSimp

/-!
# The averages in the classification report
-/

namespace Verif.Evaluation

open Verif.Network Verif.Str

section
variable {S K : Type} [LinearOrder S]

theorem sum_countP {α : Type} {labels : List S} (hn : labels.Nodup) (l : List α) (f : α → S) (p : α → Prop)
    [DecidablePred p] (hf : ∀ x ∈ l, p x → f x ∈ labels) :
    (labels.map fun s => l.countP fun x => decide (p x ∧ f x = s)).sum = l.countP fun x => decide (p x) := by
  induction l with
  | nil => simp
  | cons x l ih =>
    simp only [List.countP_cons]
    rw [List.sum_map_add, ih fun x hx => hf x (List.mem_cons_of_mem _ hx)]
    congr 1
    have hx := hf x List.mem_cons_self
    by_cases hp : p x
    · simp only [hp, true_and, decide_eq_true_eq]
      have : (labels.map fun s => if f x = s then 1 else 0).sum = labels.count (f x) := by
        clear ih hf hx hn
        induction labels with
        | nil => rfl
        | cons s labels ih =>
          rw [List.map_cons, List.sum_cons, ih, List.count_cons, Nat.add_comm]
          congr 1
          by_cases hs : f x = s
          · simp [hs]
          · simp [hs, Ne.symm hs]
      rw [this, List.count_eq_one_of_mem hn (hx hp)]
      rfl
    · simp [hp]

variable [Field K] [LinearOrder K] [IsStrictOrderedRing K]

theorem get?_append_right {β : Type} {d l : List (Str × β)} {k : Str} (h : k ∉ d.map (·.1)) :
    Dict.get? (d ++ l) k = Dict.get? l k := by
  induction d with
  | nil => rfl
  | cons e d ih =>
    obtain ⟨k', x⟩ := e
    rw [List.map_cons, List.mem_cons, not_or] at h
    rw [List.cons_append, Dict.get?, if_neg (Ne.symm h.1), ih h.2]

/-- **C121**: for complete data the report also holds three averages.  The first is the fraction of the rows in which
the predicted state is the true one: a number called `accuracy` if every state is the true or the predicted one
in some row (and `acc`, that is scikit-learn is not of version 0.20), otherwise scores called `micro avg`, all of
which are equal to it.  `macro avg` holds the means of the scores over the states, `weighted avg` those weighted with
the supports; its recall is again the fraction of right predictions. -/
theorem classificationReport_averages {int : ℕ → S} (hint : Function.Injective int) {ns : List Str}
    {E : List (Str × Str)} (hE : IsStructure ns E) {net net' : Net Str S K} (hr : Reach int ns E net)
    (hne : ∀ v ∈ net.nodes, statesOf net v ≠ []) {h₀ h₁ : Heap Str S} {ref₀ : ℕ} {a : FitArgs K}
    (hf : fitCpds int net h₀ ref₀ a = (net', h₁, .ok ()))
    {tables : List (Str × Table Str S K)} (hc : cpds net' = .ok tables) {v : Str} {t : Table Str S K}
    (ht : (v, t) ∈ tables) {h : Heap Str S} {ref : ℕ} {df : DF Str S} (hdf : h[ref]? = some df)
    (hcols : ∀ p ∈ v :: t.parents, p ∈ df.cols)
    (hk : ∀ r ∈ df.rows, ∀ p ∈ v :: t.parents, ∃ s ∈ statesOf net p, r p = some s) (hrows : df.rows ≠ [])
    (oracle : DF Str S → List ℕ) (predName : Str → Str) {str : S → Str}
    (hstr : ∀ s ∈ statesOf net v, ∀ s' ∈ statesOf net v, str s = str s' → s = s')
    {order order' : List S} (hord : order.Perm (statesOf net v)) (hord' : order'.Perm (statesOf net v)) (acc : Bool) :
    ∃ (h' : Heap Str S) (pred : List S) (report : List (Str × Entry K)) (e : S → Scores K) (x : K)
        (macroAvg weightedAvg : Scores K), h <+: h' ∧
      List.Forall₂ (fun r s => s ∈ statesOf net v ∧ ∃ ps x, t.parents.map r = ps.map some ∧
        t.entry s ps = some x ∧ ∀ s' ∈ statesOf net v, ∃ y, t.entry s' ps = some y ∧ y ≤ x ∧ (s' < s → y < x))
        df.rows pred ∧
      classificationReport oracle int predName str order order' acc net' h ref v = (h', .ok report) ∧
      (∀ s ∈ statesOf net v, Dict.get? report (fmtName str v s) = some (.scores (e s))) ∧
      x = ((df.rows.zip pred).countP fun q => q.1 v = some q.2 : ℕ) / (df.rows.length : K) ∧
      (if acc ∧ ∀ s ∈ statesOf net v, (∃ r ∈ df.rows, r v = some s) ∨ s ∈ pred then
        Dict.get? report "accuracy".toList = some (.number x) ∧ Dict.get? report "micro avg".toList = none
      else Dict.get? report "accuracy".toList = none ∧
        Dict.get? report "micro avg".toList = some (.scores ⟨x, x, x, df.rows.length⟩)) ∧
      Dict.get? report "macro avg".toList = some (.scores macroAvg) ∧
      macroAvg.precision = ((statesOf net v).map fun s => (e s).precision).sum / ((statesOf net v).length : K) ∧
      macroAvg.recall = ((statesOf net v).map fun s => (e s).recall).sum / ((statesOf net v).length : K) ∧
      macroAvg.f1 = ((statesOf net v).map fun s => (e s).f1).sum / ((statesOf net v).length : K) ∧
      macroAvg.support = df.rows.length ∧
      Dict.get? report "weighted avg".toList = some (.scores weightedAvg) ∧
      weightedAvg.precision = ((statesOf net v).map fun s => ((e s).support : K) / df.rows.length * (e s).precision).sum ∧
      weightedAvg.recall = ((statesOf net v).map fun s => ((e s).support : K) / df.rows.length * (e s).recall).sum ∧
      weightedAvg.f1 = ((statesOf net v).map fun s => ((e s).support : K) / df.rows.length * (e s).f1).sum ∧
      weightedAvg.support = df.rows.length ∧ weightedAvg.recall = x := by
  obtain ⟨h', pred, tru, hpre, hP1, hT2, hrep, hnames⟩ := classificationReport_eq hint hE hr hne hf hc ht hdf hcols hk
    oracle predName hstr hord hord' acc
  obtain ⟨hsorted, -, -, -⟩ := fitted_states hint hE hr hne hf hc ht
  have hnd : (statesOf net v).Nodup := hsorted.imp ne_of_lt
  have htru : ∀ s ∈ tru, s ∈ statesOf net v := by
    intro s hs
    have : some s ∈ df.rows.map fun r => r v := by rw [hT2]; exact List.mem_map_of_mem hs
    obtain ⟨r, hr, he⟩ := List.mem_map.1 this
    obtain ⟨s', hs', he'⟩ := hk r hr v List.mem_cons_self
    rw [he] at he'
    cases he'
    exact hs'
  have hpredm : ∀ s ∈ pred, s ∈ statesOf net v := by
    intro s hs
    obtain ⟨i, hi, rfl⟩ := List.getElem_of_mem hs
    have := List.forall₂_iff_get.1 hP1
    exact (this.2 i (by rw [this.1]; exact hi) hi).1
  have hlenT : tru.length = df.rows.length := by simpa using (congrArg List.length hT2).symm
  have hlenP : pred.length = df.rows.length := hP1.length_eq.symm
  have hn0 : (df.rows.length : K) ≠ 0 := Nat.cast_ne_zero.2 (List.length_pos_iff.2 hrows).ne'
  -- the sums
  have s1 : ((statesOf net v).map fun s => tru.countP (· = s)).sum = df.rows.length := by
    have := sum_countP hnd tru id (fun _ => True) fun x hx _ => htru x hx
    simpa [hlenT] using this
  have s2 : ((statesOf net v).map fun s => pred.countP (· = s)).sum = df.rows.length := by
    have := sum_countP hnd pred id (fun _ => True) fun x hx _ => hpredm x hx
    simpa [hlenP] using this
  have s3 : ((statesOf net v).map fun s => (tru.zip pred).countP fun q => decide (q.1 = s ∧ q.2 = s)).sum =
      (df.rows.zip pred).countP fun q => q.1 v = some q.2 := by
    have := sum_countP hnd (tru.zip pred) (·.2) (fun q => q.1 = q.2) fun q hq _ => hpredm _ (List.of_mem_zip hq).2
    have e1 : ∀ (s : S) (q : S × S), (q.1 = s ∧ q.2 = s) ↔ (q.1 = q.2 ∧ q.2 = s) := by
      rintro s ⟨q1, q2⟩
      simp only
      constructor
      · rintro ⟨rfl, rfl⟩; exact ⟨rfl, rfl⟩
      · rintro ⟨rfl, rfl⟩; exact ⟨rfl, rfl⟩
    simp only [e1]
    rw [this]
    have h1 := congrArg (fun l => List.countP (fun q : Option S × S => decide (q.1 = some q.2)) (l.zip pred)) hT2
    simp only [List.zip_map_left, List.countP_map] at h1
    refine Eq.trans ?_ (h1.symm.trans ?_)
    · refine List.countP_congr fun q _ => ?_
      simp
    · rfl
  set right := (df.rows.zip pred).countP fun q => q.1 v = some q.2 with hright
  let e : S → Scores K := labelScores tru pred
  have hes : ((statesOf net v).map fun s => (e s).support).sum = df.rows.length := s1
  have hmicro : microScores (K := K) tru pred (statesOf net v) =
      ⟨right / df.rows.length, right / df.rows.length, right / df.rows.length, df.rows.length⟩ := by
    unfold microScores
    simp only [s1, s2, s3, safeDiv]
    rw [if_neg hn0]
    congr 1
    by_cases h0 : (right : K) / df.rows.length = 0
    · rw [h0]; simp
    · have h2 : (right : K) / df.rows.length + right / df.rows.length ≠ 0 := by
        rw [← two_mul]
        exact mul_ne_zero two_ne_zero h0
      rw [if_neg h2, div_eq_iff h2]
      ring
  have hw : ∀ f : Scores K → K, safeDiv (((statesOf net v).map (labelScores tru pred)).map
      fun e => (e.support : K) * f e).sum ((((statesOf net v).map (labelScores (K := K) tru pred)).map (·.support)).sum : ℕ) =
      ((statesOf net v).map fun s => ((e s).support : K) / df.rows.length * f (e s)).sum := by
    intro f
    rw [List.map_map, List.map_map]
    have : ((statesOf net v).map ((·.support) ∘ labelScores (K := K) tru pred)).sum = df.rows.length := hes
    rw [this, safeDiv, if_neg hn0, div_eq_mul_inv, ← List.sum_map_mul_right]
    refine congrArg List.sum (List.map_congr_left fun s _ => ?_)
    simp only [Function.comp, e]
    ring
  have hrec : ((statesOf net v).map fun s => ((e s).support : K) / df.rows.length * (e s).recall).sum =
      right / df.rows.length := by
    rw [← s3, div_eq_mul_inv, Nat.cast_list_sum, List.map_map, ← List.sum_map_mul_right]
    refine congrArg List.sum (List.map_congr_left fun s _ => ?_)
    simp only [Function.comp, e, labelScores, safeDiv]
    by_cases h0 : ((tru.countP (· = s) : ℕ) : K) = 0
    · rw [if_pos h0, h0]
      have : (tru.zip pred).countP (fun q => decide (q.1 = s ∧ q.2 = s)) = 0 := by
        rw [List.countP_eq_zero]
        intro q hq
        have h1 := List.countP_eq_zero.1 (Nat.cast_eq_zero.1 h0) q.1 (List.of_mem_zip hq).1
        simp only [decide_eq_true_eq] at h1 ⊢
        exact fun h2 => h1 h2.1
      rw [this]
      simp
    · rw [if_neg h0]
      field_simp
  have hcond : (acc ∧ (∀ s ∈ statesOf net v, s ∈ tru ∨ s ∈ pred) ∧ (∀ s ∈ tru, s ∈ statesOf net v) ∧
      (∀ s ∈ pred, s ∈ statesOf net v)) ↔
      (acc ∧ ∀ s ∈ statesOf net v, (∃ r ∈ df.rows, r v = some s) ∨ s ∈ pred) := by
    have hm : ∀ s, s ∈ tru ↔ ∃ r ∈ df.rows, r v = some s := by
      intro s
      have := congrArg (some s ∈ ·) hT2
      simp only [List.mem_map, Option.some.injEq, exists_eq_right, eq_iff_iff] at this
      exact this.symm
    simp only [hm]
    constructor
    · rintro ⟨h1, h2, -⟩
      exact ⟨h1, h2⟩
    · rintro ⟨h1, h2⟩
      exact ⟨h1, h2, fun s hs => htru s ((hm s).2 hs), hpredm⟩
  have hother : ∀ k : Str, '_' ∉ k → Dict.get? (((statesOf net v).map fun s =>
      (fmtName str v s, Entry.scores (labelScores (K := K) tru pred s))) ++ averages acc tru pred (statesOf net v)) k =
      Dict.get? (averages acc tru pred (statesOf net v)) k := by
    intro k hk
    refine get?_append_right fun hm => hk ?_
    rw [List.map_map] at hm
    obtain ⟨s, -, rfl⟩ := List.mem_map.1 hm
    simp [fmtName]
  refine ⟨h', pred, _, e, right / df.rows.length, macroScores tru pred (statesOf net v),
    weightedScores tru pred (statesOf net v), hpre, hP1, hrep, ?_, rfl, ?_, ?_, ?_, ?_, ?_, ?_, ?_, ?_, ?_, ?_, ?_, ?_⟩
  · intro s hs
    rw [get?_append_left (by rw [List.map_map]; exact List.mem_map_of_mem hs)]
    refine Dict.get?_of_mem ?_ (List.mem_map_of_mem hs)
    rw [List.map_map]
    exact hnames
  · by_cases hb : acc ∧ ∀ s ∈ statesOf net v, (∃ r ∈ df.rows, r v = some s) ∨ s ∈ pred
    · rw [if_pos hb, hother _ (by decide), hother _ (by decide), averages, if_pos (hcond.2 hb), hmicro]
      exact ⟨rfl, rfl⟩
    · rw [if_neg hb, hother _ (by decide), hother _ (by decide), averages, if_neg (fun h => hb (hcond.1 h)), hmicro]
      exact ⟨rfl, rfl⟩
  · rw [hother _ (by decide), averages]
    split <;> rfl
  · simp only [macroScores, List.map_map, List.length_map]; rfl
  · simp only [macroScores, List.map_map, List.length_map]; rfl
  · simp only [macroScores, List.map_map, List.length_map]; rfl
  · simp only [macroScores, List.map_map]
    exact hes
  · rw [hother _ (by decide), averages]
    split <;> rfl
  · exact hw (·.precision)
  · exact hw (·.recall)
  · exact hw (·.f1)
  · simp only [weightedScores, List.map_map]
    exact hes
  · exact (hw (·.recall)).trans hrec

end

end Verif.Evaluation
