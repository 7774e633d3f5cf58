import Verif.Network.PropsFit

/-!
# Properties of `BayesianNetwork`: prediction
-/

namespace Verif.Network

open Verif.BBN (lookup_mem lookup_of_mem_nodup lookup_isSome_iff)
open Function

section
variable {V S K : Type} [LinearOrder V] [LinearOrder S] [Zero K] [One K] [Add K] [Div K] [NatCast K]
  [LinearOrder K]

theorem foldl_max (l : List (S × K)) (b : S × K)
    (hs : (b :: l).Pairwise fun p q => p.1 < q.1) :
    l.foldl (fun b q => if b.2 < q.2 then q else b) b ∈ b :: l ∧
      ∀ q ∈ b :: l, q.2 ≤ (l.foldl (fun b q => if b.2 < q.2 then q else b) b).2 ∧
        (q.1 < (l.foldl (fun b q => if b.2 < q.2 then q else b) b).1 →
          q.2 < (l.foldl (fun b q => if b.2 < q.2 then q else b) b).2) := by
  induction l generalizing b with
  | nil => simp
  | cons q l ih =>
    rw [List.foldl_cons]
    rw [List.pairwise_cons, List.pairwise_cons] at hs
    obtain ⟨hb, hq, hl⟩ := hs
    by_cases h : b.2 < q.2
    · rw [if_pos h]
      obtain ⟨h1, h2⟩ := ih q (List.pairwise_cons.2 ⟨hq, hl⟩)
      refine ⟨List.mem_cons_of_mem _ h1, ?_⟩
      intro x hx
      rcases List.mem_cons.1 hx with rfl | hx
      · have := lt_of_lt_of_le h (h2 q (by simp)).1
        exact ⟨this.le, fun _ => this⟩
      · exact h2 x hx
    · rw [if_neg h]
      obtain ⟨h1, h2⟩ := ih b (List.pairwise_cons.2 ⟨fun x hx => hb x (by simp [hx]), hl⟩)
      constructor
      · rcases List.mem_cons.1 h1 with h1 | h1
        · rw [h1]; simp
        · exact List.mem_cons_of_mem _ (List.mem_cons_of_mem _ h1)
      · intro x hx
        rcases List.mem_cons.1 hx with rfl | hx
        · exact h2 x (by simp)
        · rcases List.mem_cons.1 hx with rfl | hx
          · have hbm := h2 b (by simp)
            refine ⟨(not_lt.1 h).trans hbm.1, fun hlt => ?_⟩
            exact lt_of_le_of_lt (not_lt.1 h) (hbm.2 ((hb x (by simp)).trans hlt))
          · exact h2 x (List.mem_cons_of_mem _ hx)

theorem idxmax_map {ks : List S} (hne : ks ≠ []) (hs : ks.Pairwise (· < ·)) (f : S → K) :
    ∃ s ∈ ks, idxmax (ks.map fun s => (s, f s)) = .ok s ∧
      ∀ s' ∈ ks, f s' ≤ f s ∧ (s' < s → f s' < f s) := by
  cases ks with
  | nil => exact absurd rfl hne
  | cons k ks =>
    have hp : ((k, f k) :: ks.map fun s => (s, f s)).Pairwise fun p q : S × K => p.1 < q.1 := by
      have := List.Pairwise.map (S := fun p q : S × K => p.1 < q.1) (fun s => (s, f s))
        (fun a b h => h) hs
      simpa using this
    obtain ⟨h1, h2⟩ := foldl_max _ _ hp
    rw [List.map_cons, idxmax]
    set m := (ks.map fun s => (s, f s)).foldl (fun b q => if b.2 < q.2 then q else b) (k, f k)
      with hm
    rw [← List.map_cons (f := fun s => (s, f s))] at h1 h2
    obtain ⟨s, hs', hms⟩ := List.mem_map.1 h1
    refine ⟨s, hs', by rw [← hms], fun s' hs'' => ?_⟩
    have := h2 (s', f s') (List.mem_map_of_mem hs'')
    rwa [← hms] at this

/-- The states of the parents in a row. -/
theorem row_config {net : Net V S K} {parents : List V} {r : V → Option S}
    (hk : ∀ p ∈ parents, ∃ s ∈ statesOf net p, r p = some s) :
    parents.map r = (parents.filterMap r).map some ∧ IsConfig net parents (parents.filterMap r) := by
  induction parents with
  | nil => exact ⟨rfl, .nil⟩
  | cons p ps ih =>
    obtain ⟨s, hs, hr⟩ := hk p (by simp)
    obtain ⟨h1, h2⟩ := ih fun q hq => hk q (by simp [hq])
    rw [List.filterMap_cons_some hr, List.map_cons, List.map_cons, h1, hr]
    exact ⟨rfl, .cons hs h2⟩

/-- The facts about a fitted network used below. -/
theorem fitted_cpdOf {int : ℕ → S} (hint : Injective int) {ns : List V} {E : List (V × V)}
    (hE : IsStructure ns E) {net net' : Net V S K} (hr : Reach int ns E net)
    (hne : ∀ v ∈ net.nodes, statesOf net v ≠ []) {h h' : Heap V S} {ref : ℕ} {a : FitArgs K}
    (hf : fitCpds int net h ref a = (net', h', .ok ())) :
    ∃ P : V → S → List S → K, ∀ v ∈ net.nodes,
      cpdOf net' v = .ok (mkTable (statesOf net v) (sortedParents E v)
        (product ((sortedParents E v).map (statesOf net))) (P v)) := by
  have hw := hr.wf hE
  obtain ⟨states, df, ps, hst, hdf, -, hps, rfl⟩ := fitCpds_ok hw hf
  refine ⟨fun v s t => probOf (ps v (sortedParents net.edges v)) (statesOf net v)
      (fun s => observed net df v (sortedParents net.edges v) s t) s, fun v hv => ?_⟩
  rw [cpdOf, fitCpds_cpds hint hE hw hne hst df ps]
  simp only [bind, Except.bind, pure, Except.pure]
  have hlook : (net.nodes.map fun v => (v, fittedTable net df ps v)).lookup v =
      some (fittedTable net df ps v) := by
    apply lookup_of_mem_nodup
    · rw [List.map_map]
      change (net.nodes.map id).Nodup
      rw [List.map_id, hw.nodes]
      exact nodesOfEdges_nodup E
    · exact List.mem_map.2 ⟨v, hv, rfl⟩
  rw [hlook]
  simp only [fittedTable, hw.edges]

theorem cpdOf_of_mem {ns : List V} {E : List (V × V)} {net net' : Net V S K} {v : V}
    {t : Table V S K} {tables : List (V × Table V S K)} (hw : net.WF ns E)
    (hc : cpds net' = .ok tables) (hk : tables.map Prod.fst = net.nodes) (ht : (v, t) ∈ tables) :
    cpdOf net' v = .ok t := by
  rw [cpdOf, hc]
  simp only [bind, Except.bind, pure, Except.pure]
  rw [lookup_of_mem_nodup (by rw [hk, hw.nodes]; exact nodesOfEdges_nodup E) ht]

/-! ### C12 -/

/-- **C12**: with complete data, `predict` returns for each row the state of the node that has the
largest entry in the column of its CPD that is labelled with the states of the parents in that row;
the smallest such state if there are several.  The caller's frames are not changed. -/
theorem predict_argmax {int : ℕ → S} (hint : Injective int) {ns : List V} {E : List (V × V)}
    (hE : IsStructure ns E) {net net' : Net V S K} (hr : Reach int ns E net)
    (hne : ∀ v ∈ net.nodes, statesOf net v ≠ []) {h₀ h₁ : Heap V S} {ref₀ : ℕ} {a : FitArgs K}
    (hf : fitCpds int net h₀ ref₀ a = (net', h₁, .ok ()))
    {tables : List (V × Table V S K)} (hc : cpds net' = .ok tables) {v : V} {t : Table V S K}
    (ht : (v, t) ∈ tables) {h : Heap V S} {ref : ℕ} {df : DF V S} (hdf : h[ref]? = some df)
    (hcols : ∀ p ∈ t.parents, p ∈ df.cols)
    (hk : ∀ r ∈ df.rows, ∀ p ∈ t.parents, ∃ s ∈ statesOf net p, r p = some s)
    (oracle : DF V S → List ℕ) (predName : V → V) :
    ∃ h' out, predict oracle int predName net' h ref v = (h', .ok out) ∧ h <+: h' ∧
      out.cols = [predName v] ∧
      List.Forall₂ (fun r r' => ∃ s ∈ statesOf net v, ∃ ps x, t.parents.map r = ps.map some ∧
        r' (predName v) = some s ∧ t.entry s ps = some x ∧
        ∀ s' ∈ statesOf net v, ∃ y, t.entry s' ps = some y ∧ y ≤ x ∧ (s' < s → y < x))
        df.rows out.rows := by
  have hw := hr.wf hE
  obtain ⟨states, df₀, ps₀, hst, hdf₀, -, -, -⟩ := fitCpds_ok hw hf
  obtain ⟨hn, he, hso, -, -, -, -, tables', hc', hkeys, -⟩ := fit_cpds_tables hint hE hr hne hdf₀ hf
  rw [hc] at hc'
  cases hc'
  have hv : v ∈ net.nodes := hkeys ▸ List.mem_map_of_mem ht
  obtain ⟨P, hP⟩ := fitted_cpdOf hint hE hr hne hf
  have htab := hP v hv
  rw [cpdOf_of_mem hw hc hkeys ht] at htab
  injection htab with htab
  subst htab
  change ∀ p ∈ sortedParents E v, p ∈ df.cols at hcols
  change ∀ r ∈ df.rows, ∀ p ∈ sortedParents E v, ∃ s ∈ statesOf net p, r p = some s at hk
  have hsorted : (statesOf net v).Pairwise (· < ·) := by
    rw [statesOf_eq hst]
    exact keysOf_sorted (hw.encWF hst) v
  choose g hg1 hg2 hg3 using fun ps : List S =>
    idxmax_map (hne v hv) hsorted (fun s => P v s ps)
  have hmem : ∀ r ∈ df.rows, (sortedParents E v).filterMap r ∈
      product ((sortedParents E v).map (statesOf net)) := by
    intro r hr
    rw [mem_product, List.forall₂_map_right_iff]
    exact (row_config (hk r hr)).2
  have hget : (h ++ [df])[h.length]? = some df := by simp
  have hstep := assignCol_ok (c := predName v) hget (g := fun r => do
      return some (← idxmax (← column (mkTable (statesOf net v) (sortedParents E v)
        (product ((sortedParents E v).map (statesOf net))) (P v))
        ((sortedParents net'.edges v).map r))))
    (f := fun r => some (g ((sortedParents E v).filterMap r))) (by
      intro r hr
      rw [he, (row_config (hk r hr)).1, mkTable_column (hmem r hr)]
      simp only [bind, Except.bind, pure, Except.pure]
      rw [hg2])
  have hcomp : isComplete net' df v = true := by
    rw [isComplete, he]
    simpa using hcols
  refine ⟨(h ++ [df]).set h.length
    ⟨if predName v ∈ df.cols then df.cols else df.cols ++ [predName v],
      df.rows.map fun r => update r (predName v) (some (g ((sortedParents E v).filterMap r)))⟩,
    ⟨[predName v], df.rows.map fun r => update r (predName v)
    (some (g ((sortedParents E v).filterMap r)))⟩, ?_, ?_, rfl, ?_⟩
  · rw [predict, hdf]
    simp only
    rw [if_neg (by simpa [hn] using hv), if_pos hcomp, predictComplete, hdf]
    simp only
    rw [hP v hv]
    simp only
    rw [hstep]
    simp only
    rw [List.getElem?_set_self (by simp)]
  · exact prefix_set (List.prefix_append _ _) (le_refl _)
  · rw [List.forall₂_map_right_iff, List.forall₂_same]
    intro r hr
    refine ⟨_, hg1 ((sortedParents E v).filterMap r), _,
      P v (g ((sortedParents E v).filterMap r)) ((sortedParents E v).filterMap r),
      (row_config (hk r hr)).1, by simp, ?_, ?_⟩
    · rw [mkTable_entry, if_pos ⟨hg1 _, hmem r hr⟩]
    · intro s' hs'
      refine ⟨P v s' _, ?_, hg3 _ s' hs'⟩
      rw [mkTable_entry, if_pos ⟨hs', hmem r hr⟩]

theorem lookup_map_self {ks : List S} {f : S → K} {s : S} (hs : s ∈ ks) :
    (ks.map fun s => (s, f s)).lookup s = some (f s) := by
  have : (ks.map fun s => (s, f s)) = ks.zip (ks.map f) := by
    apply List.ext_getElem <;> simp
  rw [this, lookup_zip_map, if_pos hs]

/-- The loop of `predict_probability`. -/
theorem probLoop_ok {num : K → S} {fmt : V → S → V} {net : Net V S K} {v : V} {par : List V}
    {P : S → List S → K} {t : Table V S K}
    (ht : t = mkTable (statesOf net v) par (product (par.map (statesOf net))) P)
    (hfmt : ∀ s ∈ statesOf net v, fmt v s ∉ par) {sts : List S}
    (hs : ∀ s ∈ sts, s ∈ statesOf net v) (hn : (sts.map (fmt v)).Nodup) {h : Heap V S} {ref : ℕ}
    {df : DF V S} (hdf : h[ref]? = some df)
    (hk : ∀ r ∈ df.rows, ∀ p ∈ par, ∃ s ∈ statesOf net p, r p = some s) :
    ∃ df', probLoop num fmt t par v h ref sts = (h.set ref df', .ok ()) ∧
      List.Forall₂ (fun r r' => (∀ c, c ∉ sts.map (fmt v) → r' c = r c) ∧
        ∀ s ∈ sts, r' (fmt v s) = some (num (P s (par.filterMap r)))) df.rows df'.rows := by
  induction sts generalizing h df with
  | nil =>
    refine ⟨df, ?_, ?_⟩
    · have hset : h.set ref df = h := by
        obtain ⟨hlt, rfl⟩ := List.getElem?_eq_some_iff.1 hdf
        exact List.set_getElem_self hlt
      rw [probLoop, hset]
    · rw [List.forall₂_same]
      intro r _
      simp
  | cons s sts ih =>
    rw [List.map_cons, List.nodup_cons] at hn
    have hsv := hs s (by simp)
    have hlt : ref < h.length := (List.getElem?_eq_some_iff.1 hdf).1
    have hcfg : ∀ (r : V → Option S) x, par.map (update r (fmt v s) x) = par.map r := by
      intro r x
      apply List.map_congr_left
      intro p hp
      rw [update_of_ne]
      rintro rfl
      exact hfmt s hsv hp
    have hcfg' : ∀ (r : V → Option S) x,
        par.filterMap (update r (fmt v s) x) = par.filterMap r := by
      intro r x
      apply List.filterMap_congr
      intro p hp
      rw [update_of_ne]
      rintro rfl
      exact hfmt s hsv hp
    have hstep := assignCol_ok (c := fmt v s) hdf (g := lookupProbability num t par s)
      (f := fun r => some (num (P s (par.filterMap r)))) (by
        intro r hr
        have hm : par.filterMap r ∈ product (par.map (statesOf net)) := by
          rw [mem_product, List.forall₂_map_right_iff]
          exact (row_config (hk r hr)).2
        rw [lookupProbability, (row_config (hk r hr)).1, ht, mkTable_column hm]
        simp only [bind, Except.bind, pure, Except.pure]
        rw [lookup_map_self (f := fun s => P s (par.filterMap r)) hsv])
    obtain ⟨df', h1, h2⟩ := ih (fun x hx => hs x (by simp [hx])) hn.2
      (h := h.set ref ⟨if fmt v s ∈ df.cols then df.cols else df.cols ++ [fmt v s],
        df.rows.map fun r => update r (fmt v s) (some (num (P s (par.filterMap r))))⟩)
      (df := ⟨if fmt v s ∈ df.cols then df.cols else df.cols ++ [fmt v s],
        df.rows.map fun r => update r (fmt v s) (some (num (P s (par.filterMap r))))⟩)
      (by rw [List.getElem?_set_self hlt]) (by
        intro r hr p hp
        obtain ⟨r₀, hr₀, rfl⟩ := List.mem_map.1 hr
        rw [update_of_ne]
        · exact hk r₀ hr₀ p hp
        · rintro rfl
          exact hfmt s hsv hp)
    refine ⟨df', ?_, ?_⟩
    · rw [probLoop, hstep]
      simp only
      rw [h1, List.set_set]
    · rw [List.forall₂_map_left_iff] at h2
      refine h2.imp ?_
      rintro r r' ⟨h3, h4⟩
      constructor
      · intro c hc
        simp only [List.map_cons, List.mem_cons, not_or] at hc
        rw [h3 c hc.2, update_of_ne hc.1]
      · intro x hx
        rcases List.mem_cons.1 hx with rfl | hx
        · rw [h3 _ hn.1, update_self]
        · rw [h4 x hx, hcfg']

/-- **C12**: with complete data, `predict_probability` returns one column per state of the node,
named after the node and the state; each row holds the column of the CPD labelled with the states of
the parents in that row.  Partial: this needs that no parent has the name of one of these columns
(see `predict_probability_collision`); and that different states have different names. -/
theorem predict_probability_column_partial {int : ℕ → S} (hint : Injective int) {ns : List V}
    {E : List (V × V)} (hE : IsStructure ns E) {net net' : Net V S K} (hr : Reach int ns E net)
    (hne : ∀ v ∈ net.nodes, statesOf net v ≠ []) {h₀ h₁ : Heap V S} {ref₀ : ℕ} {a : FitArgs K}
    (hf : fitCpds int net h₀ ref₀ a = (net', h₁, .ok ()))
    {tables : List (V × Table V S K)} (hc : cpds net' = .ok tables) {v : V} {t : Table V S K}
    (ht : (v, t) ∈ tables) {h : Heap V S} {ref : ℕ} {df : DF V S} (hdf : h[ref]? = some df)
    (hcols : ∀ p ∈ t.parents, p ∈ df.cols)
    (hk : ∀ r ∈ df.rows, ∀ p ∈ t.parents, ∃ s ∈ statesOf net p, r p = some s)
    (oracle : DF V S → DF V S) (pattern : V → Except Err (V → Bool)) (num : K → S) (fmt : V → S → V)
    (order : List S) (hord : order.Perm (statesOf net v))
    (hfmt : ∀ s ∈ statesOf net v, ∀ s' ∈ statesOf net v, fmt v s = fmt v s' → s = s')
    (hcoll : ∀ s ∈ statesOf net v, fmt v s ∉ t.parents) :
    ∃ h' out, predictProbability oracle pattern int num fmt order net' h ref v = (h', .ok out) ∧
      h <+: h' ∧ out.cols = order.map (fmt v) ∧
      List.Forall₂ (fun r r' => ∃ ps, t.parents.map r = ps.map some ∧
        ∀ s ∈ statesOf net v, ∃ x, t.entry s ps = some x ∧ r' (fmt v s) = some (num x))
        df.rows out.rows := by
  have hw := hr.wf hE
  obtain ⟨states, df₀, ps₀, hst, hdf₀, -, -, -⟩ := fitCpds_ok hw hf
  obtain ⟨hn, he, hso, -, -, -, -, tables', hc', hkeys, -⟩ := fit_cpds_tables hint hE hr hne hdf₀ hf
  rw [hc] at hc'
  cases hc'
  have hv : v ∈ net.nodes := hkeys ▸ List.mem_map_of_mem ht
  obtain ⟨P, hP⟩ := fitted_cpdOf hint hE hr hne hf
  have htab := hP v hv
  rw [cpdOf_of_mem hw hc hkeys ht] at htab
  injection htab with htab
  subst htab
  change ∀ p ∈ sortedParents E v, p ∈ df.cols at hcols
  change ∀ r ∈ df.rows, ∀ p ∈ sortedParents E v, ∃ s ∈ statesOf net p, r p = some s at hk
  change ∀ s ∈ statesOf net v, fmt v s ∉ sortedParents E v at hcoll
  have hnd : (statesOf net v).Nodup := by
    rw [statesOf_eq hst]
    exact keysOf_nodup (hw.encWF hst) v
  have hget : (h ++ [df])[h.length]? = some df := by simp
  obtain ⟨df', h1, h2⟩ := probLoop_ok (num := num) (fmt := fmt) (P := P v) rfl hcoll (sts := order)
    (fun s hs => hord.mem_iff.1 hs) (List.Nodup.map_on (fun s hs s' hs' => hfmt s
      (hord.mem_iff.1 hs) s' (hord.mem_iff.1 hs')) (hord.nodup_iff.2 hnd)) hget hk
  have hcomp : isComplete net' df v = true := by
    rw [isComplete, he]
    simpa using hcols
  refine ⟨(h ++ [df]).set h.length df', ⟨order.map (fmt v), df'.rows⟩, ?_, ?_, rfl, ?_⟩
  · rw [predictProbability, hdf]
    simp only
    rw [if_neg (by simpa [hn] using hv), if_pos hcomp, predictProbComplete, hdf]
    simp only
    rw [hP v hv]
    simp only
    rw [he, h1]
    simp only
    rw [List.getElem?_set_self (by simp)]
  · exact prefix_set (List.prefix_append _ _) (le_refl _)
  · refine ((List.forall₂_and_left df.rows _).2 ⟨hk, h2⟩).imp ?_
    rintro r r' ⟨hkr, -, h4⟩
    refine ⟨_, (row_config hkr).1, fun s hs => ⟨P v s _, ?_, h4 s (hord.mem_iff.2 hs)⟩⟩
    rw [mkTable_entry, if_pos]
    refine ⟨hs, ?_⟩
    rw [mem_product, List.forall₂_map_right_iff]
    exact (row_config hkr).2

/-- **C12**: with complete data, a row in which a parent has a null or an unknown state makes
`predict` raise; no frame of the caller is changed. -/
theorem predict_unknown_state {int : ℕ → S} (hint : Injective int) {ns : List V} {E : List (V × V)}
    (hE : IsStructure ns E) {net net' : Net V S K} (hr : Reach int ns E net)
    (hne : ∀ v ∈ net.nodes, statesOf net v ≠ []) {h₀ h₁ : Heap V S} {ref₀ : ℕ} {a : FitArgs K}
    (hf : fitCpds int net h₀ ref₀ a = (net', h₁, .ok ()))
    {tables : List (V × Table V S K)} (hc : cpds net' = .ok tables) {v : V} {t : Table V S K}
    (ht : (v, t) ∈ tables) {h : Heap V S} {ref : ℕ} {df : DF V S} (hdf : h[ref]? = some df)
    (hcols : ∀ p ∈ t.parents, p ∈ df.cols)
    (hk : ∃ r ∈ df.rows, ∃ p ∈ t.parents, ∀ s ∈ statesOf net p, r p ≠ some s)
    (oracle : DF V S → List ℕ) (predName : V → V) :
    ∃ h', predict oracle int predName net' h ref v = (h', .error .keyError) ∧ h <+: h' := by
  have hw := hr.wf hE
  obtain ⟨states, df₀, ps₀, hst, hdf₀, -, -, -⟩ := fitCpds_ok hw hf
  obtain ⟨hn, he, hso, -, -, -, -, tables', hc', hkeys, -⟩ := fit_cpds_tables hint hE hr hne hdf₀ hf
  rw [hc] at hc'
  cases hc'
  have hv : v ∈ net.nodes := hkeys ▸ List.mem_map_of_mem ht
  obtain ⟨P, hP⟩ := fitted_cpdOf hint hE hr hne hf
  have htab := hP v hv
  rw [cpdOf_of_mem hw hc hkeys ht] at htab
  injection htab with htab
  subst htab
  change ∀ p ∈ sortedParents E v, p ∈ df.cols at hcols
  change ∃ r ∈ df.rows, ∃ p ∈ sortedParents E v, ∀ s ∈ statesOf net p, r p ≠ some s at hk
  have hsorted : (statesOf net v).Pairwise (· < ·) := by
    rw [statesOf_eq hst]
    exact keysOf_sorted (hw.encWF hst) v
  have hcomp : isComplete net' df v = true := by
    rw [isComplete, he]
    simpa using hcols
  have hget : (h ++ [df])[h.length]? = some df := by simp
  have herr := mapM_error (l := df.rows) (e := Err.keyError) (f := fun r => do
      return update r (predName v) (← (do
        return some (← idxmax (← column (mkTable (statesOf net v) (sortedParents E v)
          (product ((sortedParents E v).map (statesOf net))) (P v))
          ((sortedParents E v).map r)))))) (by
      intro r _
      by_cases hex : ∃ u ∈ product ((sortedParents E v).map (statesOf net)),
          u.map some = (sortedParents E v).map r
      · obtain ⟨u, hu, hur⟩ := hex
        obtain ⟨s, -, hs, -⟩ := idxmax_map (hne v hv) hsorted (fun s => P v s u)
        left
        rw [← hur, mkTable_column hu]
        simp only [bind, Except.bind, pure, Except.pure, hs]
        exact ⟨_, rfl⟩
      · right
        push Not at hex
        rw [mkTable_column_error hex]
        rfl) (by
      obtain ⟨r, hrm, p, hp, hnp⟩ := hk
      refine ⟨r, hrm, ?_⟩
      rw [mkTable_column_error]
      · rfl
      · intro u hu hur
        rw [mem_product, List.forall₂_map_right_iff] at hu
        have : List.Forall₂ (fun (x : Option S) p => ∃ s ∈ statesOf net p, x = some s)
            (u.map some) (sortedParents E v) := by
          rw [List.forall₂_map_left_iff]
          exact hu.imp fun s p h => ⟨s, h, rfl⟩
        rw [hur, List.forall₂_map_left_iff, List.forall₂_same] at this
        obtain ⟨s, hs, h⟩ := this p hp
        exact hnp s hs h)
  refine ⟨h ++ [df], ?_, List.prefix_append _ _⟩
  rw [predict, hdf]
  simp only
  rw [if_neg (by simpa [hn] using hv), if_pos hcomp, predictComplete, hdf]
  simp only
  rw [hP v hv]
  simp only
  rw [he, assignCol, hget]
  simp only
  rw [herr]

/-- **C11**: a network whose CPDs were never fitted has no CPDs, and predicting from complete data
raises. -/
theorem unfitted_predict {int : ℕ → S} {net : Net V S K} (hu : net.cpds = []) {h : Heap V S}
    {ref : ℕ} {df : DF V S} (hdf : h[ref]? = some df) {v : V} (hv : v ∈ net.nodes)
    (hcols : ∀ u, (u, v) ∈ net.edges → u ∈ df.cols) (oracle : DF V S → List ℕ) (predName : V → V) :
    cpds net = .ok [] ∧
      predict oracle int predName net h ref v = (h ++ [df], .error .keyError) := by
  have hc : cpds net = .ok [] := by
    rw [cpds, hu]
    cases net.states <;> rfl
  refine ⟨hc, ?_⟩
  have hcomp : isComplete net df v = true := by
    simp only [isComplete, List.all_eq_true, decide_eq_true_eq, sortedParents, mem_insertionSort']
    intro u hu
    obtain ⟨e, he, rfl⟩ := List.mem_map.1 hu
    rw [List.mem_filter] at he
    apply hcols
    have := he.2
    simp only [decide_eq_true_eq] at this
    rw [← this]
    exact he.1
  rw [predict, hdf]
  simp only
  rw [if_neg (by simpa using hv), if_pos hcomp, predictComplete, hdf]
  simp only [cpdOf, hc, bind, Except.bind]
  rfl

/-- CPDs stay unfitted until `fit_cpds` succeeds. -/
theorem set_node_states_unfitted {net : Net V S K} (hu : net.cpds = [])
    (dict : List (V × List (Option S))) : (setNodeStates net dict).1.cpds = [] := by
  rcases setNodeStates_cases net dict with ⟨h, -⟩ | ⟨h, -⟩ | ⟨h, -⟩ <;> rw [h] <;> exact hu

/-! ### C13 -/

theorem not_complete {net : Net V S K} {df : DF V S} {v p : V} (hp : (p, v) ∈ net.edges)
    (hc : p ∉ df.cols) : isComplete net df v = false := by
  rw [← Bool.not_eq_true, isComplete, List.all_eq_true]
  intro h
  have := h p (by
    rw [sortedParents, mem_insertionSort']
    exact List.mem_map.2 ⟨(p, v), by simp [hp], rfl⟩)
  exact hc (by simpa using this)

theorem incompleteData_ok {int : ℕ → S} {net : Net V S K} {states : List (V × List (S × ℕ))}
    (hst : net.states = some states) {h : Heap V S} {ref : ℕ} {df : DF V S}
    (hdf : h[ref]? = some df) (hnd : df.cols.Nodup) (hcov : ∀ c ∈ df.cols, c ∈ states.map Prod.fst)
    {v : V} (hv : v ∈ df.cols) :
    ∃ d, incompleteData int net h ref v =
        (h ++ [⟨df.cols, df.rows.map (encRow int states df.cols)⟩], .ok d) ∧
      d = ⟨df.cols.filter (· ≠ v), df.rows.map (encRow int states df.cols)⟩ := by
  have hget : (h ++ [df])[h.length]? = some df := by simp
  refine ⟨_, ?_, rfl⟩
  unfold incompleteData
  simp only [hst, hdf]
  rw [stateToIndex_ok hget hnd (fun _ h => h) hcov]
  have hset : (h ++ [df]).set h.length ⟨df.cols, df.rows.map (encRow int states df.cols)⟩ =
      h ++ [⟨df.cols, df.rows.map (encRow int states df.cols)⟩] := by
    rw [List.set_append_right _ _ (le_refl _)]
    simp
  simp only [hset]
  rw [List.getElem?_append_right (le_refl _)]
  simp [hv]

/-- **C13**: with incomplete data, if the inference (pgmpy) finds the code of state `want r` for each
row, and each state of the node equals its own code, `predict` returns these states.  Partial: for
nodes whose states are not `0..k-1` the codes are returned, see `predict_incomplete_codes`. -/
theorem predict_incomplete_partial {int : ℕ → S} {net : Net V S K}
    {states : List (V × List (S × ℕ))} (hst : net.states = some states) {h : Heap V S} {ref : ℕ}
    {df : DF V S} (hdf : h[ref]? = some df) (hnd : df.cols.Nodup)
    (hcov : ∀ c ∈ df.cols, c ∈ states.map Prod.fst) {v : V} (hv : v ∈ df.cols)
    (hvn : v ∈ net.nodes) {p : V} (hp : (p, v) ∈ net.edges) (hpc : p ∉ df.cols)
    (oracle : DF V S → List ℕ) (predName : V → V) (want : List S)
    (hor : oracle ⟨df.cols.filter (· ≠ v), df.rows.map (encRow int states df.cols)⟩ =
      want.map (rank net v))
    (hself : ∀ s ∈ want, int (rank net v s) = s) :
    ∃ h' out, predict oracle int predName net h ref v = (h', .ok out) ∧ h <+: h' ∧
      out.cols = [predName v] ∧ out.rows.map (fun r => r (predName v)) = want.map some := by
  obtain ⟨d, h1, rfl⟩ := incompleteData_ok (int := int) hst hdf hnd hcov hv
  refine ⟨h ++ [⟨df.cols, df.rows.map (encRow int states df.cols)⟩],
    ⟨[predName v], (oracle ⟨df.cols.filter (· ≠ v), df.rows.map (encRow int states df.cols)⟩).map
      fun i => update (fun _ => none) (predName v) (some (int i))⟩,
    ?_, List.prefix_append _ _, rfl, ?_⟩
  · rw [predict, hdf]
    simp only
    rw [if_neg (by simpa using hvn), not_complete hp hpc]
    simp only [Bool.false_eq_true, if_false]
    rw [predictIncomplete, h1]
  · simp only [hor, List.map_map]
    apply List.map_congr_left
    intro s hs
    simp [hself s hs]

/-- **C13**: prediction for a node that is not part of the structure raises, whatever the data and the history; no frame is changed. -/
theorem predict_unknown_node {int : ℕ → S} {ns : List V} {E : List (V × V)} (hE : IsStructure ns E) {net : Net V S K}
    (hr : Reach int ns E net) {h : Heap V S} {ref : ℕ} {df : DF V S} (hdf : h[ref]? = some df) {v : V}
    (hv : ∀ e ∈ E, v ≠ e.1 ∧ v ≠ e.2) (oracle : DF V S → List ℕ) (predName : V → V)
    (oracle' : DF V S → DF V S) (pattern : V → Except Err (V → Bool)) (num : K → S) (fmt : V → S → V) (order : List S) :
    predict oracle int predName net h ref v = (h, .error .networkXError) ∧
    predictProbability oracle' pattern int num fmt order net h ref v = (h, .error .networkXError) := by
  have hn : v ∉ net.nodes := by
    rw [(hr.wf hE).nodes, mem_nodesOfEdges]
    rintro ⟨e, he, h1 | h1⟩
    · exact (hv e he).1 h1
    · exact (hv e he).2 h1
  rw [predict, predictProbability, hdf]
  simp only
  rw [if_pos hn, if_pos hn]
  exact ⟨rfl, rfl⟩

/-- **C13**: with incomplete data, `predict` also requires a column for the node to be predicted. -/
theorem predict_incomplete_needs_node {int : ℕ → S} {net : Net V S K}
    {h : Heap V S} {ref : ℕ}
    {df : DF V S} (hdf : h[ref]? = some df) {states : List (V × List (S × ℕ))}
    (hst : net.states = some states) (hnd : df.cols.Nodup)
    (hcov : ∀ c ∈ df.cols, c ∈ states.map Prod.fst) {v : V} (hv : v ∉ df.cols)
    (hvn : v ∈ net.nodes) {p : V} (hp : (p, v) ∈ net.edges) (hpc : p ∉ df.cols)
    (oracle : DF V S → List ℕ) (predName : V → V) :
    ∃ h', predict oracle int predName net h ref v = (h', .error .keyError) ∧ h <+: h' := by
  have hget : (h ++ [df])[h.length]? = some df := by simp
  refine ⟨_, ?_, List.prefix_append h [⟨df.cols, df.rows.map (encRow int states df.cols)⟩]⟩
  rw [predict, hdf]
  simp only
  rw [if_neg (by simpa using hvn), not_complete hp hpc]
  simp only [Bool.false_eq_true, if_false]
  rw [predictIncomplete, incompleteData]
  simp only [hst, hdf]
  rw [stateToIndex_ok hget hnd (fun _ h => h) hcov]
  have hset : (h ++ [df]).set h.length ⟨df.cols, df.rows.map (encRow int states df.cols)⟩ =
      h ++ [⟨df.cols, df.rows.map (encRow int states df.cols)⟩] := by
    rw [List.set_append_right _ _ (le_refl _)]
    simp
  simp only [hset]
  rw [List.getElem?_append_right (le_refl _)]
  simp [hv]

/-- Predicting changes no frame of the caller, whatever happens. -/
theorem predict_keeps_frames {int : ℕ → S} {net : Net V S K} {h h' : Heap V S} {ref : ℕ} {v : V}
    {oracle : DF V S → List ℕ} {predName : V → V} {r : Except Err (DF V S)}
    (hp : predict oracle int predName net h ref v = (h', r)) : h <+: h' := by
  unfold predict at hp
  split at hp
  · cases hp; exact List.prefix_refl _
  · split at hp
    · cases hp; exact List.prefix_refl _
    · split at hp
      · unfold predictComplete at hp
        split at hp
        · cases hp; exact List.prefix_refl _
        · simp only at hp
          split at hp
          · cases hp; exact List.prefix_append _ _
          · split at hp <;> rename_i ha <;> cases hp <;>
              exact assignCol_prefix ha (List.prefix_append _ _) (le_refl _)
      · unfold predictIncomplete at hp
        have key : ∀ {h' : Heap V S} {r}, incompleteData int net h ref v = (h', r) → h <+: h' := by
          intro h' r hi
          unfold incompleteData at hi
          split at hi
          · cases hi; exact List.prefix_refl _
          · cases hi; exact List.prefix_append _ _
          · simp only at hi
            split at hi
            · rename_i hs
              cases hi
              exact stateToIndex_prefix hs (List.prefix_append _ _) (le_refl _)
            · rename_i hs
              have := stateToIndex_prefix hs (List.prefix_append h _) (le_refl _)
              split at hi
              · cases hi; exact this
              · split at hi <;> cases hi <;> exact this
        split at hp <;> rename_i hi <;> cases hp <;> exact key hi

end

end Verif.Network
