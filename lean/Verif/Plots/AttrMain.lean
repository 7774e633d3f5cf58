import Verif.Plots.AttrProps

/-!
C69: `plot_structure` and histories of plots.
-/

namespace Verif.Plots

open Verif.Str Verif.Dict

section
variable {N V : Type} [DecidableEq N]

/-- **C69**: what is plotted. The caller's objects are unchanged; the plot has the nodes and edges of the graph in their order; every
attribute of a node or edge is the specific one if given, else the common one, else the default, else (for nodes) the label, else the one
of the graph; every attribute of the whole is the given one, else the default, else the one of the graph. -/
theorem plotStructure_correct (label : N → V) (nodeStyle edgeStyle : Style) (graphStyle : ℕ) (own : Attrs V) (h : List (Attrs V))
    (g : Graph N) (a : PlotArgs N) (hw : ∀ d ∈ h, (d.map (·.1)).Nodup) (hg : g.WF h.length) (ha : a.WF h.length)
    (hns : nodeStyle.normal < h.length) (hes : edgeStyle.normal < h.length) (hgs : graphStyle < h.length) :
    let r := plotStructure label nodeStyle edgeStyle graphStyle own h g a
    (∀ i < h.length, deref r.1 i = deref h i) ∧ h.length ≤ r.1.length ∧
    r.2.nodes.map (·.1) = g.nodes.map (·.1) ∧ r.2.edges.map (·.1) = g.edges.map (·.1) ∧
    (∀ (n : N) (i : ℕ), (n, i) ∈ g.nodes → ∃ d, (n, d) ∈ r.2.nodes ∧ ∀ k, get? d k =
      (givenFor h a.node n k).orElse fun _ => (given h a.allNode k).orElse fun _ => (get? (deref h nodeStyle.normal) k).orElse fun _ =>
        if k = labelKey then some (label n) else get? (deref h i) k) ∧
    (∀ (e : N × N) (i : ℕ), (e, i) ∈ g.edges → ∃ d, (e, d) ∈ r.2.edges ∧ ∀ k, get? d k =
      (givenFor h a.edge e k).orElse fun _ => (given h a.allEdge k).orElse fun _ => (get? (deref h edgeStyle.normal) k).orElse fun _ =>
        get? (deref h i) k) ∧
    ∀ k, get? r.2.graph k = (given h a.graph k).orElse fun _ => (get? (deref h graphStyle) k).orElse fun _ => get? own k := by
  intro r
  obtain ⟨c1, c2, c3, -, c5, c6⟩ := addAttributes_correct label nodeStyle edgeStyle h g a hw hg ha hns hes
  have hkeys := keys_nodup hw
  refine ⟨c1, ?_, ?_, ?_, ?_, ?_, ?_⟩
  · have hset : ∀ (h : List (Attrs V)) (rs : List ℕ) (k : Str) (v : V), (setAll h rs k v).length = h.length := by
      intro h rs k v
      unfold setAll
      induction rs generalizing h with
      | nil => rfl
      | cons r rs ih => rw [List.foldl_cons, ih, setAt_length]
    have hent : ∀ (d : Attrs V) (rs : List ℕ) (h : List (Attrs V)), (d.foldl (fun h e => setAll h rs e.1 e.2) h).length = h.length := by
      intro d rs
      induction d with
      | nil => intro h; rfl
      | cons e d ih => intro h; rw [List.foldl_cons, ih, hset]
    have hcom : ∀ (h : List (Attrs V)) (rs : List ℕ) (n : ℕ) (o : Option ℕ), (applyCommon h rs n o).length = h.length + 1 := by
      intro h rs n o
      unfold applyCommon
      simp only
      rw [hent]
      cases o with
      | none => simp
      | some r => simp only; split_ifs <;> simp [updateAt]
    have hspec : ∀ {A : Type} [DecidableEq A] (h : List (Attrs V)) (items : List (A × ℕ)) (o : Option (List (A × ℕ))),
        (applySpecific h items o).length = h.length := by
      intro A _ h items o
      cases o with
      | none => rfl
      | some l =>
        unfold applySpecific
        simp only
        induction l generalizing h with
        | nil => rfl
        | cons p l ih =>
          rw [List.foldl_cons, ih]
          cases get? items p.1 with
          | none => rfl
          | some r => simp [updateAt]
    have hlab : ∀ (l : List (N × ℕ)) (h : List (Attrs V)), (l.foldl (fun h p => setAt h p.2 labelKey (label p.1)) h).length = h.length := by
      intro l
      induction l with
      | nil => intro h; rfl
      | cons p l ih => intro h; rw [List.foldl_cons, ih, setAt_length]
    change h.length ≤ (addAttributes label nodeStyle edgeStyle h g a).1.length
    unfold addAttributes deepcopy setLabels
    simp only
    rw [hspec, hspec, hcom, hcom, hlab, List.length_append]
    omega
  · change ((addAttributes label nodeStyle edgeStyle h g a).2.nodes.map _).map _ = _
    rw [List.map_map, ← c2]
    rfl
  · change ((addAttributes label nodeStyle edgeStyle h g a).2.edges.map _).map _ = _
    rw [List.map_map, ← c3]
    rfl
  · intro n i hni
    obtain ⟨j, hj, hk⟩ := c5 n i hni
    exact ⟨_, List.mem_map.2 ⟨(n, j), hj, rfl⟩, hk⟩
  · intro e i hei
    obtain ⟨j, hj, hk⟩ := c6 e i hei
    exact ⟨_, List.mem_map.2 ⟨(e, j), hj, rfl⟩, hk⟩
  · intro k
    change get? (match a.graph with
      | none => update own (deref (addAttributes label nodeStyle edgeStyle h g a).1 graphStyle)
      | some r => if deref (addAttributes label nodeStyle edgeStyle h g a).1 r = [] then
          update own (deref (addAttributes label nodeStyle edgeStyle h g a).1 graphStyle)
        else update (update own (deref (addAttributes label nodeStyle edgeStyle h g a).1 graphStyle))
          (deref (addAttributes label nodeStyle edgeStyle h g a).1 r)) k = _
    rw [c1 _ hgs]
    cases hag : a.graph with
    | none =>
      simp only
      rw [get?_update (hkeys _)]
      rfl
    | some r =>
      simp only
      rw [c1 _ (ha.graph r hag)]
      unfold given
      simp only [Option.bind_some]
      split_ifs with he
      · rw [he, get?_update (hkeys _)]
        rfl
      · rw [get?_update (hkeys _), get?_update (hkeys _)]

/-- Dictionaries stay dictionaries: every key once. -/
theorem plotStructure_keys (label : N → V) (nodeStyle edgeStyle : Style) (graphStyle : ℕ) (own : Attrs V) (h : List (Attrs V))
    (g : Graph N) (a : PlotArgs N) (hw : ∀ d ∈ h, (d.map (·.1)).Nodup) :
    ∀ d ∈ (plotStructure label nodeStyle edgeStyle graphStyle own h g a).1, (d.map (·.1)).Nodup := by
  have hset : ∀ (h : List (Attrs V)) (r : ℕ) (d : Attrs V), (∀ d ∈ h, (d.map (·.1)).Nodup) → (d.map (·.1)).Nodup →
      ∀ d' ∈ h.set r d, (d'.map (·.1)).Nodup := by
    intro h r d hw hd d' hd'
    rcases List.mem_or_eq_of_mem_set hd' with h1 | h1
    · exact hw d' h1
    · rw [h1]; exact hd
  have hat : ∀ (h : List (Attrs V)) (r : ℕ) (k : Str) (v : V), (∀ d ∈ h, (d.map (·.1)).Nodup) → ∀ d ∈ setAt h r k v, (d.map (·.1)).Nodup :=
    fun h r k v hw => hset h r _ hw (nodup_set (keys_nodup hw r))
  have hup : ∀ (h : List (Attrs V)) (r : ℕ) (l : Attrs V), (∀ d ∈ h, (d.map (·.1)).Nodup) → ∀ d ∈ updateAt h r l, (d.map (·.1)).Nodup :=
    fun h r l hw => hset h r _ hw (nodup_update (keys_nodup hw r))
  have hall : ∀ (rs : List ℕ) (k : Str) (v : V) (h : List (Attrs V)), (∀ d ∈ h, (d.map (·.1)).Nodup) → ∀ d ∈ setAll h rs k v, (d.map (·.1)).Nodup := by
    intro rs k v
    unfold setAll
    induction rs with
    | nil => intro h hw; exact hw
    | cons r rs ih => intro h hw; exact ih _ (hat h r k v hw)
  have hent : ∀ (l : Attrs V) (rs : List ℕ) (h : List (Attrs V)), (∀ d ∈ h, (d.map (·.1)).Nodup) →
      ∀ d ∈ l.foldl (fun h e => setAll h rs e.1 e.2) h, (d.map (·.1)).Nodup := by
    intro l rs
    induction l with
    | nil => intro h hw; exact hw
    | cons e l ih => intro h hw; exact ih _ (hall rs e.1 e.2 h hw)
  have hcom : ∀ (h : List (Attrs V)) (rs : List ℕ) (n : ℕ) (o : Option ℕ), (∀ d ∈ h, (d.map (·.1)).Nodup) →
      ∀ d ∈ applyCommon h rs n o, (d.map (·.1)).Nodup := by
    intro h rs n o hw
    have happ : ∀ d ∈ h ++ [update [] (deref h n)], (d.map (·.1)).Nodup := by
      intro d hd
      rcases List.mem_append.1 hd with hd | hd
      · exact hw d hd
      · rw [List.mem_singleton.1 hd]; exact nodup_update (by simp)
    unfold applyCommon
    refine hent _ _ _ ?_
    cases o with
    | none => exact happ
    | some r =>
      simp only
      split_ifs
      · exact happ
      · exact hup _ _ _ happ
  have hspec : ∀ {A : Type} [DecidableEq A] (items : List (A × ℕ)) (o : Option (List (A × ℕ))) (h : List (Attrs V)), (∀ d ∈ h, (d.map (·.1)).Nodup) →
      ∀ d ∈ applySpecific h items o, (d.map (·.1)).Nodup := by
    intro A _ items o
    cases o with
    | none => intro h hw; exact hw
    | some l =>
      unfold applySpecific
      simp only
      induction l with
      | nil => intro h hw; exact hw
      | cons p l ih =>
        intro h hw
        rw [List.foldl_cons]
        refine ih _ ?_
        cases get? items p.1 with
        | none => exact hw
        | some r => exact hup _ _ _ hw
  have hlab : ∀ (l : List (N × ℕ)) (h : List (Attrs V)), (∀ d ∈ h, (d.map (·.1)).Nodup) →
      ∀ d ∈ l.foldl (fun h p => setAt h p.2 labelKey (label p.1)) h, (d.map (·.1)).Nodup := by
    intro l
    induction l with
    | nil => intro h hw; exact hw
    | cons p l ih => intro h hw; exact ih _ (hat h p.2 labelKey (label p.1) hw)
  change ∀ d ∈ (addAttributes label nodeStyle edgeStyle h g a).1, _
  unfold addAttributes deepcopy setLabels
  simp only
  refine hspec _ _ _ (hspec _ _ _ (hcom _ _ _ _ (hcom _ _ _ _ (hlab _ _ ?_))))
  intro d hd
  rcases List.mem_append.1 hd with hd | hd <;> exact hw d hd

/-- Any number of plots, of any graphs with any arguments, one after another. -/
def plotMany (label : N → V) (nodeStyle edgeStyle : Style) (graphStyle : ℕ) (h : List (Attrs V)) (l : List (Attrs V × Graph N × PlotArgs N)) :
    List (Attrs V) :=
  l.foldl (fun h c => (plotStructure label nodeStyle edgeStyle graphStyle c.1 h c.2.1 c.2.2).1) h

/-- After any number of plots all objects of the caller and the default styles are as before. -/
theorem plotMany_keep (label : N → V) (nodeStyle edgeStyle : Style) (graphStyle : ℕ) (h : List (Attrs V))
    (l : List (Attrs V × Graph N × PlotArgs N)) (hw : ∀ d ∈ h, (d.map (·.1)).Nodup)
    (hl : ∀ c ∈ l, c.2.1.WF h.length ∧ c.2.2.WF h.length) (hns : nodeStyle.normal < h.length) (hes : edgeStyle.normal < h.length)
    (hgs : graphStyle < h.length) (i : ℕ) (hi : i < h.length) :
    deref (plotMany label nodeStyle edgeStyle graphStyle h l) i = deref h i := by
  -- extra dictionaries at the end of the heap do not matter: state with a prefix
  have gen : ∀ (l : List (Attrs V × Graph N × PlotArgs N)) (h' : List (Attrs V)), h.length ≤ h'.length →
      (∀ j < h.length, deref h' j = deref h j) → (∀ c ∈ l, c.2.1.WF h.length ∧ c.2.2.WF h.length) → (∀ d ∈ h', (d.map (·.1)).Nodup) →
      deref (plotMany label nodeStyle edgeStyle graphStyle h' l) i = deref h i := by
    intro l
    induction l with
    | nil => intro h' _ hh _ _; exact hh i hi
    | cons c l ih =>
      intro h' hlen hh hc hw'
      obtain ⟨g1, g2⟩ := hc c List.mem_cons_self
      have hg' : c.2.1.WF h'.length := ⟨g1.nodes, g1.edges, g1.refs, fun r hr => Nat.lt_of_lt_of_le (g1.bound r hr) hlen⟩
      have ha' : c.2.2.WF h'.length := ⟨fun r hr => Nat.lt_of_lt_of_le (g2.allNode r hr) hlen, fun r hr => Nat.lt_of_lt_of_le (g2.allEdge r hr) hlen,
        fun r hr => Nat.lt_of_lt_of_le (g2.graph r hr) hlen, fun q hq => ⟨(g2.node q hq).1, fun p hp => Nat.lt_of_lt_of_le ((g2.node q hq).2 p hp) hlen⟩,
        fun q hq => ⟨(g2.edge q hq).1, fun p hp => Nat.lt_of_lt_of_le ((g2.edge q hq).2 p hp) hlen⟩⟩
      obtain ⟨c1, c2, -⟩ := plotStructure_correct label nodeStyle edgeStyle graphStyle c.1 h' c.2.1 c.2.2 hw' hg' ha'
        (Nat.lt_of_lt_of_le hns hlen) (Nat.lt_of_lt_of_le hes hlen) (Nat.lt_of_lt_of_le hgs hlen)
      refine ih _ (Nat.le_trans hlen c2) (fun j hj => (c1 j (Nat.lt_of_lt_of_le hj hlen)).trans (hh j hj)) (fun c' hc' => hc c' (List.mem_cons_of_mem _ hc')) ?_
      exact plotStructure_keys label nodeStyle edgeStyle graphStyle c.1 h' c.2.1 c.2.2 hw'
  exact gen l h (Nat.le_refl _) (fun _ _ => rfl) hl hw

end

/-! ### An example -/

/-- A graph with the edge `a -> b`, the attribute `label` of `b` and the weight of the edge; default styles, a common and a specific
dictionary. -/
def exHeap : List (Attrs Str) :=
  [[], [(labelKey, ['x'])], [(['w'], ['1'])], [(['c'], ['d'])], [(['c'], ['e'])], [(['c'], ['f'])], [(['c'], ['g']), (['s'], ['h'])], [(['c'], ['i'])]]

/-- See `exHeap`. -/
def exGraph : Graph Str := ⟨[(['a'], 0), (['b'], 1)], [((['a'], ['b']), 2)]⟩

/-- A common dictionary for nodes and a specific one for `b`. -/
def exArgs : PlotArgs Str := { allNode := some 6, node := some [(['b'], 7), (['z'], 7)], graph := some 6 }

/-- The hypotheses of `plotStructure_correct` are met, and the three sources are used. -/
theorem plot_example : (∀ d ∈ exHeap, (d.map (·.1)).Nodup) ∧ exGraph.WF exHeap.length ∧ exArgs.WF exHeap.length ∧
    (plotStructure id ⟨3, 3, 3⟩ ⟨4, 4, 4⟩ 5 [] exHeap exGraph exArgs).2 =
      ⟨[(['a'], [(labelKey, ['a']), (['c'], ['g']), (['s'], ['h'])]), (['b'], [(labelKey, ['b']), (['c'], ['i']), (['s'], ['h'])])],
        [((['a'], ['b']), [(['w'], ['1']), (['c'], ['e'])])], [(['c'], ['g']), (['s'], ['h'])]⟩ := by
  refine ⟨by decide, ⟨by decide, by decide, by decide, by decide⟩, ⟨?_, ?_, ?_, ?_, ?_⟩, by rfl⟩
  · intro r hr; cases hr; decide
  · intro r hr; cases hr
  · intro r hr; cases hr; decide
  · intro l hl; cases hl; decide
  · intro l hl; cases hl

end Verif.Plots
