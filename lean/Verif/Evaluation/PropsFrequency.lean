import Verif.Evaluation.Props

/-!
# Evaluation depends on the relative frequencies of the rows only
-/

namespace Verif.Evaluation

open Verif.Network Verif.Str

/-! ### Lists in which all frequencies are proportional -/

section
variable {α β : Type} [BEq α] [LawfulBEq α] [BEq β] [LawfulBEq β]

theorem count_replicate_flatten (a : ℕ) (l : List α) (x : α) :
    ((List.replicate a l).flatten).count x = a * l.count x := by
  rw [List.count_flatten, List.map_replicate, List.sum_replicate]
  rfl

theorem countP_replicate_flatten (a : ℕ) (l : List α) (p : α → Bool) :
    ((List.replicate a l).flatten).countP p = a * l.countP p := by
  rw [List.countP_flatten, List.map_replicate, List.sum_replicate]
  rfl

theorem copies_perm {l l' : List α} {a b : ℕ} (h : ∀ x, a * l.count x = b * l'.count x) :
    (List.replicate a l).flatten.Perm (List.replicate b l').flatten := by
  rw [List.perm_iff_count]
  intro x
  rw [count_replicate_flatten, count_replicate_flatten, h]

theorem countP_prop {l l' : List α} {a b : ℕ} (h : ∀ x, a * l.count x = b * l'.count x) (p : α → Bool) :
    a * l.countP p = b * l'.countP p := by
  rw [← countP_replicate_flatten, ← countP_replicate_flatten, (copies_perm h).countP_eq]

theorem count_flatMap_prop {l l' : List α} {a b : ℕ} (h : ∀ x, a * l.count x = b * l'.count x) (f : α → List β)
    (y : β) : a * (l.flatMap f).count y = b * (l'.flatMap f).count y := by
  have h1 := (copies_perm h).flatMap_right f
  have h2 : ∀ (m : ℕ) (l : List α), (List.replicate m l).flatten.flatMap f =
      (List.replicate m (l.flatMap f)).flatten := by
    intro m l
    induction m with
    | zero => rfl
    | succ m ih => rw [List.replicate_succ, List.replicate_succ, List.flatten_cons, List.flatten_cons, List.flatMap_append, ih]
  rw [h2, h2] at h1
  rw [← count_replicate_flatten, ← count_replicate_flatten, h1.count_eq]

theorem mem_prop {l l' : List α} {a b : ℕ} (ha : 0 < a) (hb : 0 < b) (h : ∀ x, a * l.count x = b * l'.count x)
    (x : α) : x ∈ l ↔ x ∈ l' := by
  rw [← List.count_pos_iff, ← List.count_pos_iff]
  constructor
  · intro hx
    exact Nat.pos_of_mul_pos_left (h x ▸ Nat.mul_pos ha hx)
  · intro hx
    exact Nat.pos_of_mul_pos_left ((h x).symm ▸ Nat.mul_pos hb hx)

end

/-! ### The curve -/

section
variable {K : Type} [Field K] [LinearOrder K]

def scale (a : ℕ) (p : ℕ × ℕ) : ℕ × ℕ := (a * p.1, a * p.2)

theorem dropFrom_scale {a : ℕ} (ha : 0 < a) (l : List (ℕ × ℕ)) : ∀ p : ℕ × ℕ,
    dropFrom (scale a p) (l.map (scale a)) = (dropFrom p l).map (scale a) := by
  induction l with
  | nil => intro p; rfl
  | cons q l ih =>
    intro p
    cases l with
    | nil => rfl
    | cons r l =>
      have hiff : (scale a p).1 + (scale a r).1 = 2 * (scale a q).1 ∧ (scale a p).2 + (scale a r).2 = 2 * (scale a q).2 ↔
          p.1 + r.1 = 2 * q.1 ∧ p.2 + r.2 = 2 * q.2 := by
        have h : ∀ x y z : ℕ, a * x + a * y = 2 * (a * z) ↔ x + y = 2 * z := by
          intro x y z
          rw [← Nat.mul_add, Nat.mul_left_comm]
          exact Nat.mul_right_inj ha.ne'
        unfold scale
        rw [h, h]
      rw [List.map_cons, List.map_cons, dropFrom, dropFrom]
      by_cases hc : p.1 + r.1 = 2 * q.1 ∧ p.2 + r.2 = 2 * q.2
      · rw [if_pos hc, if_pos (hiff.2 hc), ← List.map_cons, ih q]
      · rw [if_neg hc, if_neg (fun h => hc (hiff.1 h)), ← List.map_cons, ih q, List.map_cons]

theorem dropIntermediate_scale {a : ℕ} (ha : 0 < a) (l : List (ℕ × ℕ)) :
    dropIntermediate (l.map (scale a)) = (dropIntermediate l).map (scale a) := by
  cases l with
  | nil => rfl
  | cons p l => rw [List.map_cons, dropIntermediate, dropIntermediate, dropFrom_scale ha, List.map_cons]

variable [CharZero K]

theorem rate_scale {a : ℕ} (ha : 0 < a) (n m : ℕ) : rate (K := K) (a * n) (a * m) = rate n m := by
  unfold rate
  by_cases hm : m = 0
  · subst hm; rw [if_pos (Nat.mul_zero a), if_pos rfl]
  · rw [if_neg (Nat.mul_ne_zero ha.ne' hm), if_neg hm, Nat.cast_mul, Nat.cast_mul,
      mul_div_mul_left _ _ (Nat.cast_ne_zero.2 ha.ne')]

/-- The curve of given numbers of false and of true positives. -/
def rates (l : List (ℕ × ℕ)) : List (Option K × Option K) :=
  ((0, 0) :: dropIntermediate l).map fun p =>
    (rate p.1 (((0, 0) :: dropIntermediate l).getLastD (0, 0)).1, rate p.2 (((0, 0) :: dropIntermediate l).getLastD (0, 0)).2)

theorem rates_scale {a : ℕ} (ha : 0 < a) (l : List (ℕ × ℕ)) : rates (K := K) (l.map (scale a)) = rates l := by
  unfold rates
  have h0 : (0, 0) :: (dropIntermediate l).map (scale a) = ((0, 0) :: dropIntermediate l).map (scale a) := by
    rw [List.map_cons]; rfl
  rw [dropIntermediate_scale ha, h0, List.map_map]
  have hl : (((0, 0) :: dropIntermediate l).map (scale a)).getLastD (0, 0) =
      scale a (((0, 0) :: dropIntermediate l).getLastD (0, 0)) := by
    rw [List.getLastD_eq_getLast?, List.getLastD_eq_getLast?, List.getLast?_map]
    cases h : ((0, 0) :: dropIntermediate l).getLast? with
    | none => rfl
    | some x => rfl
  rw [hl]
  refine List.map_congr_left fun p _ => ?_
  simp only [Function.comp, scale]
  rw [rate_scale ha, rate_scale ha]

theorem thresholds_congr {s s' : List K} (h : ∀ x, x ∈ s ↔ x ∈ s') : thresholds s = thresholds s' := by
  unfold thresholds
  refine List.Perm.eq_of_pairwise (le := (· ≥ ·)) (fun a b _ _ h1 h2 => le_antisymm h2 h1)
    (List.pairwise_insertionSort _ _) (List.pairwise_insertionSort _ _) ?_
  refine ((List.perm_insertionSort _ _).trans ?_).trans (List.perm_insertionSort _ _).symm
  rw [List.perm_ext_iff_of_nodup (List.nodup_dedup _) (List.nodup_dedup _)]
  intro x
  rw [List.mem_dedup, List.mem_dedup, h]

theorem mem_scores {y : List ℕ} {s : List K} (hl : y.length = s.length) (x : K) :
    x ∈ s ↔ ∃ i, (i, x) ∈ y.zip s := by
  constructor
  · intro hx
    obtain ⟨i, hi, rfl⟩ := List.getElem_of_mem hx
    refine ⟨y[i]'(by omega), ?_⟩
    rw [← List.getElem_zip (h := by rw [List.length_zip, hl, min_self]; exact hi)]
    exact List.getElem_mem _
  · rintro ⟨i, hi⟩
    exact (List.of_mem_zip hi).2

theorem rocCurve_prop {y y' : List ℕ} {s s' : List K} (hl : y.length = s.length) (hl' : y'.length = s'.length)
    {a b : ℕ} (ha : 0 < a) (hb : 0 < b) (h : ∀ q, a * (y.zip s).count q = b * (y'.zip s').count q) :
    rocCurve y s = rocCurve y' s' := by
  have hmem := mem_prop ha hb h
  have hth : thresholds s = thresholds s' := thresholds_congr fun x => by
    rw [mem_scores hl, mem_scores hl']
    simp only [hmem]
  have hnil : y = [] ↔ y' = [] := by
    have h1 : ∀ {y : List ℕ} {s : List K}, y.length = s.length → (y = [] ↔ ∀ q, q ∉ y.zip s) := by
      intro y s hl
      constructor
      · rintro rfl q
        simp
      · intro hq
        have h2 : (y.zip s).length = 0 := by
          rw [List.length_eq_zero_iff]
          exact List.eq_nil_iff_forall_not_mem.2 hq
        rw [List.length_zip, ← hl, min_self] at h2
        exact List.length_eq_zero_iff.1 h2
    rw [h1 hl, h1 hl']
    simp only [hmem]
  have hclf : (clfCurve y s).map (scale a) = (clfCurve y' s').map (scale b) := by
    unfold clfCurve
    rw [List.map_map, List.map_map, hth]
    refine List.map_congr_left fun t _ => ?_
    simp only [Function.comp, scale]
    rw [countP_prop h, countP_prop h]
  unfold rocCurve
  by_cases hy : y = []
  · rw [if_pos (Or.inr hy), if_pos (Or.inr (hnil.1 hy))]
  · rw [if_neg (by rw [not_or, not_not]; exact ⟨hl, hy⟩),
      if_neg (by rw [not_or, not_not]; exact ⟨hl', fun h => hy (hnil.2 h)⟩)]
    refine congrArg Except.ok ?_
    change rates (clfCurve y s) = rates (clfCurve y' s')
    rw [← rates_scale ha, hclf, rates_scale hb]

theorem zip_flatMap {κ β γ : Type} {G : κ → List β} {H : κ → List γ} {l : List κ}
    (h : ∀ k ∈ l, (G k).length = (H k).length) :
    (l.flatMap G).zip (l.flatMap H) = l.flatMap fun k => (G k).zip (H k) := by
  induction l with
  | nil => rfl
  | cons k l ih =>
    rw [List.flatMap_cons, List.flatMap_cons, List.flatMap_cons, List.zip_append (h k List.mem_cons_self),
      ih fun k hk => h k (List.mem_cons_of_mem _ hk)]

theorem length_flatMap_const {κ β : Type} {G : κ → List β} {l : List κ} {m : ℕ}
    (h : ∀ k ∈ l, (G k).length = m) : (l.flatMap G).length = l.length * m := by
  induction l with
  | nil => simp
  | cons k l ih =>
    rw [List.flatMap_cons, List.length_append, h k List.mem_cons_self, ih fun k hk => h k (List.mem_cons_of_mem _ hk),
      List.length_cons, Nat.add_mul, Nat.one_mul, Nat.add_comm]

/-- For row by row scores the curve depends on the relative frequencies of the rows only. -/
theorem rocCurve_rows {κ : Type} [BEq κ] [LawfulBEq κ] {G : κ → List ℕ} {H : κ → List K} {l l' : List κ} {g m : ℕ}
    (hG : ∀ k, k ∈ l ∨ k ∈ l' → (G k).length = g) (hH : ∀ k, k ∈ l ∨ k ∈ l' → (H k).length = m)
    (hl : l ≠ []) (hl' : l' ≠ []) (h : ∀ k, l'.length * l.count k = l.length * l'.count k) :
    rocCurve (l.flatMap G) (l.flatMap H) = rocCurve (l'.flatMap G) (l'.flatMap H) := by
  have e1 := length_flatMap_const fun k hk => hG k (Or.inl hk)
  have e2 := length_flatMap_const fun k hk => hH k (Or.inl hk)
  have e3 := length_flatMap_const fun k hk => hG k (Or.inr hk)
  have e4 := length_flatMap_const fun k hk => hH k (Or.inr hk)
  have p1 := List.length_pos_iff.2 hl
  have p2 := List.length_pos_iff.2 hl'
  by_cases hgm : g = m
  · subst hgm
    refine rocCurve_prop (e1.trans e2.symm) (e3.trans e4.symm) p2 p1 fun q => ?_
    rw [zip_flatMap fun k hk => (hG k (Or.inl hk)).trans (hH k (Or.inl hk)).symm,
      zip_flatMap fun k hk => (hG k (Or.inr hk)).trans (hH k (Or.inr hk)).symm]
    exact count_flatMap_prop h _ q
  · unfold rocCurve
    rw [if_pos, if_pos]
    · left
      rw [e3, e4]
      exact fun h => hgm (Nat.eq_of_mul_eq_mul_left p2 h)
    · left
      rw [e1, e2]
      exact fun h => hgm (Nat.eq_of_mul_eq_mul_left p1 h)

end

section
variable {S K : Type} [LinearOrder S] [Field K] [LinearOrder K] [IsStrictOrderedRing K]

/-- For complete data the curve and the area are computed from scores that are found row by row. -/
theorem rocAuc_rows {int : ℕ → S} (hint : Function.Injective int) {ns : List Str}
    {E : List (Str × Str)} (hE : IsStructure ns E) {net net' : Net Str S K} (hr : Reach int ns E net)
    (hne : ∀ v ∈ net.nodes, statesOf net v ≠ []) {h₀ h₁ : Heap Str S} {ref₀ : ℕ} {a : FitArgs K}
    (hf : fitCpds int net h₀ ref₀ a = (net', h₁, .ok ()))
    {tables : List (Str × Table Str S K)} (hc : cpds net' = .ok tables) {v : Str} {t : Table Str S K}
    (ht : (v, t) ∈ tables)
    (oracle : DF Str S → DF Str S) (pattern : Str → Except Err (Str → Bool)) {num : K → S} {toNum : S → Option K}
    (hnum : ∀ x, toNum (num x) = some x) {str : S → Str}
    (hstr : ∀ s ∈ statesOf net v, ∀ s' ∈ statesOf net v, str s = str s' → s = s')
    {order order' : List S} (hord : order.Perm (statesOf net v)) (hord' : order'.Perm (statesOf net v))
    (hcoll : ∀ s ∈ statesOf net v, fmtName str v s ∉ t.parents) :
    ∃ (G : List (Option S) → List ℕ) (H : List (Option S) → List K) (g m : ℕ), (∀ k, (G k).length = g) ∧
      (∀ k, (H k).length = m) ∧ ∀ {h : Heap Str S} {ref : ℕ} {df : DF Str S}, h[ref]? = some df →
        (∀ p ∈ v :: t.parents, p ∈ df.cols) →
        (∀ r ∈ df.rows, ∀ p ∈ v :: t.parents, ∃ s ∈ statesOf net p, r p = some s) →
        (rocAuc oracle pattern int num toNum str order order' net' h ref v).2 =
          (do
            let roc ← rocCurve ((df.rows.map fun r => (v :: t.parents).map r).flatMap G)
              ((df.rows.map fun r => (v :: t.parents).map r).flatMap H)
            return (roc, ← auc roc)) := by
  obtain ⟨hsorted, states, hst, hvs⟩ := fitted_states hint hE hr hne hf hc ht
  have hfmt : ∀ s ∈ statesOf net v, ∀ s' ∈ statesOf net v, fmtName str v s = fmtName str v s' → s = s' := by
    intro s hs s' hs' he
    unfold fmtName at he
    exact hstr s hs s' hs' (List.cons.inj (List.append_cancel_left he)).2
  let Q : List S := ((order'.map (label str v)).insertionSort (· ≤ ·)).flatMap fun l =>
    order'.filter (label str v · = l)
  let X : List (Option S) → S → K := fun k s => (t.entry s (k.tail.filterMap id)).getD 0
  refine ⟨fun k => (statesOf net v).map fun s => if k.headD none = some s then 1 else 0, fun k => Q.map (X k),
    (statesOf net v).length, Q.length, fun k => List.length_map _, fun k => List.length_map _, ?_⟩
  intro h ref df hdf hcols hk
  obtain ⟨h', out, hpred, hpre, hcolsout, hrowsout⟩ := predict_probability_column_partial hint hE hr hne hf hc ht hdf
    (fun p hp => hcols p (List.mem_cons_of_mem _ hp)) (fun r hr p hp => hk r hr p (List.mem_cons_of_mem _ hp))
    oracle pattern num (fmtName str) order' hord' hfmt hcoll
  have hgt := (groundTruth_correct hord hsorted (column := df.rows.map fun r => r v) (by
    intro c hc
    obtain ⟨r, hr, rfl⟩ := List.mem_map.1 hc
    exact hk r hr v List.mem_cons_self)).1
  have hy : (groundTruth order (df.rows.map fun r => r v)).rows.flatten =
      (df.rows.map fun r => (v :: t.parents).map r).flatMap fun k =>
        (statesOf net v).map fun s => if k.headD none = some s then 1 else 0 := by
    rw [hgt, List.map_map, List.flatMap_def, List.map_map]
    rfl
  have hout : out = ⟨order'.map (fmtName str v), out.rows⟩ := by rw [← hcolsout]
  have hsel : (renamed v out).rows = out.rows.map fun r' => Q.map fun s => r' (fmtName str v s) := by
    rw [hout, renamed_eq]
    unfold Frame.sorted Frame.select
    simp only [List.map_map]
    refine List.map_congr_left fun r' _ => ?_
    simp only [Function.comp, filter_zip_states]
    rw [← List.map_flatMap]
    congr!
  have hQ : ∀ s ∈ Q, s ∈ statesOf net v := by
    intro s hs
    obtain ⟨l, -, hl⟩ := List.mem_flatMap.1 hs
    exact hord'.mem_iff.1 (List.mem_of_mem_filter hl)
  have hpr : (renamed v out).rows.flatten = ((df.rows.map fun r => (v :: t.parents).map r).flatMap
      fun k => Q.map (X k)).map fun x => some (num x) := by
    rw [hsel]
    clear hsel hout hcolsout hpred hgt hy hk hdf
    generalize df.rows = rows at hrowsout
    generalize out.rows = rows' at hrowsout
    induction hrowsout with
    | nil => rfl
    | @cons r r' rows rows' hh _ ih =>
      rw [List.map_cons, List.flatten_cons, List.map_cons, List.flatMap_cons, List.map_append, ih, List.map_map]
      refine congrArg (· ++ _) (List.map_congr_left fun s hs => ?_)
      obtain ⟨ps, hps, hx⟩ := hh
      obtain ⟨x, hx1, hx2⟩ := hx s (hQ s hs)
      have hk2 : (((v :: t.parents).map r).tail.filterMap id) = ps := by
        rw [List.map_cons, List.tail_cons, hps, List.filterMap_map]
        exact List.filterMap_some
      simp only [Function.comp, X]
      rw [hk2, hx1, hx2]
      rfl
  have hscores : ((renamed v out).rows.flatten.mapM fun c => c.bind toNum) =
      some ((df.rows.map fun r => (v :: t.parents).map r).flatMap fun k => Q.map (X k)) := by
    rw [hpr]
    generalize (df.rows.map fun r => (v :: t.parents).map r).flatMap (fun k => Q.map (X k)) = l
    clear hpr
    induction l with
    | nil => rfl
    | cons x l ih => rw [List.map_cons, List.mapM_cons, ih]; simp [hnum]
  unfold rocAuc rocFrames
  rw [hdf, hst]
  simp only
  rw [if_neg (by simp only [not_or, not_not]; exact ⟨hcols v List.mem_cons_self, hvs⟩), hpred]
  simp only
  rw [hscores, hy]

theorem SameFrequencies.count {cols : List Str} {rows rows' : List (Str → Option S)}
    (h : SameFrequencies cols rows rows') (k : List (Option S)) :
    (rows'.map fun r => cols.map r).length * (rows.map fun r => cols.map r).count k =
      (rows.map fun r => cols.map r).length * (rows'.map fun r => cols.map r).count k := by
  have e : ∀ rows : List (Str → Option S), (rows.map fun r => cols.map r).count k =
      rows.countP fun r => cols.map r = k := by
    intro rows
    rw [List.count, List.countP_map]
    refine List.countP_congr fun r _ => ?_
    simp
  rw [e, e, List.length_map, List.length_map, Nat.mul_comm, h k, Nat.mul_comm]

/-- Repeating all rows and changing their order does not change the frequencies. -/
theorem SameFrequencies.of_copies (cols : List Str) {rows rows' : List (Str → Option S)} {k : ℕ}
    (h : rows'.Perm (List.replicate k rows).flatten) : SameFrequencies cols rows rows' := by
  intro c
  have h1 : rows'.length = k * rows.length := by
    rw [h.length_eq, List.length_flatten, List.map_replicate, List.sum_replicate]
    rfl
  have h2 : rows'.countP (fun r => cols.map r = c) = k * rows.countP fun r => cols.map r = c := by
    rw [h.countP_eq, List.countP_flatten, List.map_replicate, List.sum_replicate]
    rfl
  rw [h1, h2, Nat.mul_left_comm, Nat.mul_assoc]

/-- **C120**: for a fitted network the curve and the area that `roc_auc` returns depend on the relative frequencies of
the combinations of values of the node and its parents only; the other columns, the order of the rows and how
often all the rows are repeated do not matter. -/
theorem rocAuc_frequencies {int : ℕ → S} (hint : Function.Injective int) {ns : List Str}
    {E : List (Str × Str)} (hE : IsStructure ns E) {net net' : Net Str S K} (hr : Reach int ns E net)
    (hne : ∀ v ∈ net.nodes, statesOf net v ≠ []) {h₀ h₁ : Heap Str S} {ref₀ : ℕ} {a : FitArgs K}
    (hf : fitCpds int net h₀ ref₀ a = (net', h₁, .ok ()))
    {tables : List (Str × Table Str S K)} (hc : cpds net' = .ok tables) {v : Str} {t : Table Str S K}
    (ht : (v, t) ∈ tables) {h h₂ : Heap Str S} {ref ref₂ : ℕ} {df df₂ : DF Str S} (hdf : h[ref]? = some df)
    (hdf₂ : h₂[ref₂]? = some df₂) (hcols : ∀ p ∈ v :: t.parents, p ∈ df.cols ∧ p ∈ df₂.cols)
    (hk : ∀ r ∈ df.rows ++ df₂.rows, ∀ p ∈ v :: t.parents, ∃ s ∈ statesOf net p, r p = some s)
    (hrows : df.rows ≠ []) (hrows₂ : df₂.rows ≠ [])
    (hfreq : SameFrequencies (v :: t.parents) df.rows df₂.rows)
    (oracle : DF Str S → DF Str S) (pattern : Str → Except Err (Str → Bool)) {num : K → S} {toNum : S → Option K}
    (hnum : ∀ x, toNum (num x) = some x) {str : S → Str}
    (hstr : ∀ s ∈ statesOf net v, ∀ s' ∈ statesOf net v, str s = str s' → s = s')
    {order order' : List S} (hord : order.Perm (statesOf net v)) (hord' : order'.Perm (statesOf net v))
    (hcoll : ∀ s ∈ statesOf net v, fmtName str v s ∉ t.parents) :
    (rocAuc oracle pattern int num toNum str order order' net' h ref v).2 =
      (rocAuc oracle pattern int num toNum str order order' net' h₂ ref₂ v).2 := by
  obtain ⟨G, H, g, m, hG, hH, hrow⟩ := rocAuc_rows hint hE hr hne hf hc ht oracle pattern hnum hstr hord hord' hcoll
  rw [hrow hdf (fun p hp => (hcols p hp).1) fun r hr => hk r (List.mem_append_left _ hr),
    hrow hdf₂ (fun p hp => (hcols p hp).2) fun r hr => hk r (List.mem_append_right _ hr),
    rocCurve_rows (l' := df₂.rows.map fun r => (v :: t.parents).map r) (fun k _ => hG k) (fun k _ => hH k)
      (by simpa using hrows) (by simpa using hrows₂) hfreq.count]

/-! ### The report -/

section
variable {tru pred tru' pred' : List S} {a b : ℕ}

theorem countP_left {α β : Type} {l : List α} {l' : List β} (h : l.length = l'.length) (p : α → Bool) :
    l.countP p = (l.zip l').countP fun q => p q.1 := by
  have := List.countP_map (p := p) (f := Prod.fst) (l := l.zip l')
  rw [List.map_fst_zip h.le] at this
  exact this

theorem countP_right {α β : Type} {l : List α} {l' : List β} (h : l.length = l'.length) (p : β → Bool) :
    l'.countP p = (l.zip l').countP fun q => p q.2 := by
  have := List.countP_map (p := p) (f := Prod.snd) (l := l.zip l')
  rw [List.map_snd_zip h.ge] at this
  exact this

theorem safeDiv_mul {x : K} (hx : x ≠ 0) (y z : K) : safeDiv (x * y) (x * z) = safeDiv y z := by
  unfold safeDiv
  by_cases hz : z = 0
  · subst hz; rw [if_pos (mul_zero x), if_pos rfl]
  · rw [if_neg (mul_ne_zero hx hz), if_neg hz, mul_div_mul_left _ _ hx]

theorem safeDiv_prop {x y z w : ℕ} (ha : 0 < a) (hb : 0 < b) (h1 : a * x = b * y) (h2 : a * z = b * w) :
    safeDiv (x : K) (z : K) = safeDiv (y : K) (w : K) := by
  rw [← safeDiv_mul (Nat.cast_ne_zero.2 ha.ne' : (a : K) ≠ 0) (x : K), ← Nat.cast_mul, ← Nat.cast_mul, h1, h2,
    Nat.cast_mul, Nat.cast_mul, safeDiv_mul (Nat.cast_ne_zero.2 hb.ne')]

variable (hl : tru.length = pred.length) (hl' : tru'.length = pred'.length) (ha : 0 < a) (hb : 0 < b)
  (h : ∀ q, a * (tru.zip pred).count q = b * (tru'.zip pred').count q)

include hl hl' h

theorem true_prop (p : S → Bool) : a * tru.countP p = b * tru'.countP p := by
  rw [countP_left hl, countP_left hl']
  exact countP_prop h _

theorem pred_prop (p : S → Bool) : a * pred.countP p = b * pred'.countP p := by
  rw [countP_right hl, countP_right hl']
  exact countP_prop h _

include ha hb

theorem labelScores_prop (s : S) : Entry.Same b a (.scores (labelScores (K := K) tru pred s))
    (.scores (labelScores tru' pred' s)) := by
  have h1 := countP_prop h fun q => decide (q.1 = s ∧ q.2 = s)
  have h2 := true_prop hl hl' h (· = s)
  have h3 := pred_prop hl hl' h (· = s)
  have e1 := safeDiv_prop (K := K) ha hb h1 h3
  have e2 := safeDiv_prop (K := K) ha hb h1 h2
  refine ⟨e1, e2, ?_, ?_⟩
  · unfold labelScores
    simp only
    rw [e1, e2]
  · unfold labelScores
    simp only
    rw [Nat.mul_comm, h2, Nat.mul_comm]

theorem sum_prop {f g : S → ℕ} (h : ∀ s, a * f s = b * g s) (l : List S) :
    a * (l.map f).sum = b * (l.map g).sum := by
  rw [← List.sum_map_mul_left, ← List.sum_map_mul_left]
  exact congrArg List.sum (List.map_congr_left fun s _ => h s)

theorem averages_prop (acc : Bool) (labels : List S) :
    List.Forall₂ (fun e e' : Str × Entry K => e.1 = e'.1 ∧ Entry.Same b a e.2 e'.2)
      (averages acc tru pred labels) (averages acc tru' pred' labels) := by
  have hlab := fun s => labelScores_prop (K := K) hl hl' ha hb h s
  have hmicro : Entry.Same b a (.scores (microScores (K := K) tru pred labels))
      (.scores (microScores tru' pred' labels)) := by
    have h1 := sum_prop hl hl' ha hb h (fun s => countP_prop h fun q => decide (q.1 = s ∧ q.2 = s)) labels
    have h2 := sum_prop hl hl' ha hb h (fun s => true_prop hl hl' h (· = s)) labels
    have h3 := sum_prop hl hl' ha hb h (fun s => pred_prop hl hl' h (· = s)) labels
    have e1 := safeDiv_prop (K := K) ha hb h1 h3
    have e2 := safeDiv_prop (K := K) ha hb h1 h2
    refine ⟨e1, e2, ?_, ?_⟩
    · unfold microScores
      simp only
      rw [e1, e2]
    · unfold microScores
      simp only
      rw [Nat.mul_comm, h2, Nat.mul_comm]
  have hsup : a * ((labels.map (labelScores (K := K) tru pred)).map (·.support)).sum =
      b * ((labels.map (labelScores (K := K) tru' pred')).map (·.support)).sum := by
    rw [List.map_map, List.map_map]
    exact sum_prop hl hl' ha hb h (fun s => by
      have := (hlab s).2.2.2
      simp only [Function.comp]
      rw [Nat.mul_comm, this, Nat.mul_comm]) labels
  have hmacro : Entry.Same b a (.scores (macroScores (K := K) tru pred labels))
      (.scores (macroScores tru' pred' labels)) := by
    unfold macroScores
    simp only [Entry.Same, List.map_map, List.length_map]
    refine ⟨?_, ?_, ?_, ?_⟩
    · exact congrArg (·.sum / (labels.length : K)) (List.map_congr_left fun s _ => (hlab s).1)
    · exact congrArg (·.sum / (labels.length : K)) (List.map_congr_left fun s _ => (hlab s).2.1)
    · exact congrArg (·.sum / (labels.length : K)) (List.map_congr_left fun s _ => (hlab s).2.2.1)
    · rw [Nat.mul_comm, ← List.map_map, hsup, Nat.mul_comm, List.map_map]
  have hw : ∀ f : Scores K → K, (∀ s, f (labelScores tru pred s) = f (labelScores tru' pred' s)) →
      safeDiv ((labels.map (labelScores tru pred)).map fun e => (e.support : K) * f e).sum
          (((labels.map (labelScores (K := K) tru pred)).map (·.support)).sum : ℕ) =
        safeDiv ((labels.map (labelScores tru' pred')).map fun e => (e.support : K) * f e).sum
          (((labels.map (labelScores (K := K) tru' pred')).map (·.support)).sum : ℕ) := by
    intro f hff
    have h1 : (a : K) * ((labels.map (labelScores tru pred)).map fun e => (e.support : K) * f e).sum =
        b * ((labels.map (labelScores tru' pred')).map fun e => (e.support : K) * f e).sum := by
      rw [← List.sum_map_mul_left, ← List.sum_map_mul_left, List.map_map, List.map_map]
      refine congrArg List.sum (List.map_congr_left fun s _ => ?_)
      have := (hlab s).2.2.2
      simp only [Function.comp]
      rw [hff s, ← mul_assoc, ← mul_assoc, ← Nat.cast_mul, ← Nat.cast_mul, Nat.mul_comm a, this, Nat.mul_comm b]
    rw [← safeDiv_mul (Nat.cast_ne_zero.2 ha.ne' : (a : K) ≠ 0), h1, ← Nat.cast_mul, hsup, Nat.cast_mul,
      safeDiv_mul (Nat.cast_ne_zero.2 hb.ne')]
  have hweighted : Entry.Same b a (.scores (weightedScores (K := K) tru pred labels))
      (.scores (weightedScores tru' pred' labels)) := by
    unfold weightedScores
    refine ⟨hw _ fun s => (hlab s).1, hw _ fun s => (hlab s).2.1, hw _ fun s => (hlab s).2.2.1, ?_⟩
    simp only
    rw [Nat.mul_comm, hsup, Nat.mul_comm]
  have hmt : ∀ s, s ∈ tru ↔ s ∈ tru' := fun s => by
    refine mem_prop ha hb (fun x => ?_) s
    exact true_prop hl hl' h (· == x)
  have hmp : ∀ s, s ∈ pred ↔ s ∈ pred' := fun s => by
    refine mem_prop ha hb (fun x => ?_) s
    exact pred_prop hl hl' h (· == x)
  unfold averages
  simp only [hmt, hmp]
  split
  · exact .cons ⟨rfl, hmicro.1⟩ (.cons ⟨rfl, hmacro⟩ (.cons ⟨rfl, hweighted⟩ .nil))
  · exact .cons ⟨rfl, hmicro⟩ (.cons ⟨rfl, hmacro⟩ (.cons ⟨rfl, hweighted⟩ .nil))

end

open Classical in
theorem count_zip_rows {R : Type} {rows : List R} {tru pred : List S} {f : R → Option S} {P : R → S → Prop}
    (hP : ∀ r s s', P r s → P r s' → s = s') (hp : List.Forall₂ P rows pred) (ht : rows.map f = tru.map some)
    (q : S × S) : (tru.zip pred).count q = rows.countP fun r => decide (f r = some q.1 ∧ P r q.2) := by
  induction hp generalizing tru with
  | nil =>
    cases tru with
    | nil => rfl
    | cons => simp at ht
  | @cons r s rows pred hrs _ ih =>
    cases tru with
    | nil => simp at ht
    | cons x tru =>
      rw [List.map_cons, List.map_cons, List.cons.injEq] at ht
      rw [List.zip_cons_cons, List.count_cons, List.countP_cons, ih ht.2]
      congr 1
      refine if_congr ?_ rfl rfl
      obtain ⟨q1, q2⟩ := q
      rw [ht.1]
      simp only [beq_iff_eq, Prod.mk.injEq, decide_eq_true_eq, Option.some.injEq]
      constructor
      · rintro ⟨rfl, rfl⟩
        exact ⟨rfl, hrs⟩
      · rintro ⟨rfl, h2⟩
        exact ⟨rfl, hP _ _ _ hrs h2⟩

/-- **C120**, for `classification_report`: the same names, in the same order, with the same scores; the supports are
proportional to the numbers of rows. -/
theorem classificationReport_frequencies {int : ℕ → S} (hint : Function.Injective int) {ns : List Str}
    {E : List (Str × Str)} (hE : IsStructure ns E) {net net' : Net Str S K} (hr : Reach int ns E net)
    (hne : ∀ v ∈ net.nodes, statesOf net v ≠ []) {h₀ h₁ : Heap Str S} {ref₀ : ℕ} {a : FitArgs K}
    (hf : fitCpds int net h₀ ref₀ a = (net', h₁, .ok ()))
    {tables : List (Str × Table Str S K)} (hc : cpds net' = .ok tables) {v : Str} {t : Table Str S K}
    (ht : (v, t) ∈ tables) {h h₂ : Heap Str S} {ref ref₂ : ℕ} {df df₂ : DF Str S} (hdf : h[ref]? = some df)
    (hdf₂ : h₂[ref₂]? = some df₂) (hcols : ∀ p ∈ v :: t.parents, p ∈ df.cols ∧ p ∈ df₂.cols)
    (hk : ∀ r ∈ df.rows ++ df₂.rows, ∀ p ∈ v :: t.parents, ∃ s ∈ statesOf net p, r p = some s)
    (hrows : df.rows ≠ []) (hrows₂ : df₂.rows ≠ [])
    (hfreq : SameFrequencies (v :: t.parents) df.rows df₂.rows)
    (oracle : DF Str S → List ℕ) (predName : Str → Str) {str : S → Str}
    (hstr : ∀ s ∈ statesOf net v, ∀ s' ∈ statesOf net v, str s = str s' → s = s')
    {order order' : List S} (hord : order.Perm (statesOf net v)) (hord' : order'.Perm (statesOf net v)) (acc : Bool) :
    ∃ report report₂ : List (Str × Entry K),
      (classificationReport oracle int predName str order order' acc net' h ref v).2 = .ok report ∧
      (classificationReport oracle int predName str order order' acc net' h₂ ref₂ v).2 = .ok report₂ ∧
      List.Forall₂ (fun e e' => e.1 = e'.1 ∧ Entry.Same df.rows.length df₂.rows.length e.2 e'.2) report report₂ := by
  classical
  obtain ⟨h', pred, tru, -, hp, htr, hrep, -⟩ := classificationReport_eq hint hE hr hne hf hc ht hdf
    (fun p hp => (hcols p hp).1) (fun r hr => hk r (List.mem_append_left _ hr)) oracle predName hstr hord hord' acc
  obtain ⟨h₂', pred₂, tru₂, -, hp₂, htr₂, hrep₂, -⟩ := classificationReport_eq hint hE hr hne hf hc ht hdf₂
    (fun p hp => (hcols p hp).2) (fun r hr => hk r (List.mem_append_right _ hr)) oracle predName hstr hord hord' acc
  have hfun : ∀ (r : Str → Option S) (s s' : S),
      (s ∈ statesOf net v ∧ ∃ ps x, t.parents.map r = ps.map some ∧ t.entry s ps = some x ∧
        ∀ s' ∈ statesOf net v, ∃ y, t.entry s' ps = some y ∧ y ≤ x ∧ (s' < s → y < x)) →
      (s' ∈ statesOf net v ∧ ∃ ps x, t.parents.map r = ps.map some ∧ t.entry s' ps = some x ∧
        ∀ s'' ∈ statesOf net v, ∃ y, t.entry s'' ps = some y ∧ y ≤ x ∧ (s'' < s' → y < x)) → s = s' := by
    rintro r s s' ⟨hs, ps, x, h1, h2, h3⟩ ⟨hs', ps', x', h1', h2', h3'⟩
    have hps : ps' = ps := by
      have := h1'.symm.trans h1
      exact (List.map_injective_iff.2 (Option.some_injective S)) this
    subst hps
    obtain ⟨y, k1, k2, k3⟩ := h3 s' hs'
    obtain ⟨y', k1', k2', k3'⟩ := h3' s hs
    rw [h2'] at k1
    rw [h2] at k1'
    cases k1
    cases k1'
    rcases lt_trichotomy s s' with hlt | heq | hgt
    · exact absurd (k3' hlt) (not_lt.2 k2)
    · exact heq
    · exact absurd (k3 hgt) (not_lt.2 k2')
  have hlen : tru.length = pred.length := by
    rw [← hp.length_eq]
    simpa using (congrArg List.length htr).symm
  have hlen₂ : tru₂.length = pred₂.length := by
    rw [← hp₂.length_eq]
    simpa using (congrArg List.length htr₂).symm
  have hprop : ∀ q, df₂.rows.length * (tru.zip pred).count q = df.rows.length * (tru₂.zip pred₂).count q := by
    intro q
    have e := count_zip_rows hfun hp htr q
    have e₂ := count_zip_rows hfun hp₂ htr₂ q
    have hcp := countP_prop hfreq.count fun k => decide (k.head? = some (some q.1) ∧
      (q.2 ∈ statesOf net v ∧ ∃ ps x, k.tail = ps.map some ∧ t.entry q.2 ps = some x ∧
        ∀ s' ∈ statesOf net v, ∃ y, t.entry s' ps = some y ∧ y ≤ x ∧ (s' < q.2 → y < x)))
    rw [List.countP_map, List.countP_map, List.length_map, List.length_map] at hcp
    rw [e, e₂]
    refine Eq.trans ?_ (hcp.trans ?_)
    · congr 1
      refine List.countP_congr fun r _ => ?_
      simp [Function.comp]
    · congr 1
      refine List.countP_congr fun r _ => ?_
      simp [Function.comp]
  refine ⟨_, _, by rw [hrep], by rw [hrep₂], ?_⟩
  have p1 := List.length_pos_iff.2 hrows
  have p2 := List.length_pos_iff.2 hrows₂
  refine List.rel_append ?_ (averages_prop hlen hlen₂ p2 p1 hprop acc _)
  rw [List.forall₂_map_left_iff, List.forall₂_map_right_iff]
  exact List.forall₂_same.2 fun s _ => ⟨rfl, labelScores_prop hlen hlen₂ p2 p1 hprop s⟩

end

end Verif.Evaluation
