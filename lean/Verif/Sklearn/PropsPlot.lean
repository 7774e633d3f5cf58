import Verif.Sklearn.Plot
import Verif.Sklearn.Examples

/-!
# C119: what `plot_dag` plots
-/

namespace Verif.Sklearn

open Verif.Str Verif.Pytorch Verif.Plots
open Verif.Notears (Minimizer RespectsBounds)
open Verif.Dict (get?)

/-- The nodes of a learned graph are different. -/
theorem fromPandas_nodes {minimize : Minimizer ℝ} {init : ℕ → ℝ} {fuel : ℕ} {order : Visit} {X : Table} {x : Args Str}
    {g : Learned Str} (h : fromPandas minimize init fuel order X x = .ok g) : g.nodes.Nodup := by
  unfold fromPandas at h
  split at h
  · cases h
  · split_ifs at h
    split at h
    · cases h
    · split at h
      · cases h
      · unfold renameLearned at h
        split at h
        · cases h
        · split at h
          · cases h
          · split at h
            · cases h
            · cases h
              exact List.nodup_dedup _

theorem fits_nodes_nodup {ext : Ext} {e : Est} {h : Heap} {c : Call} {f : Fit} (horder : ∀ es, (ext.order es).Perm es) (hw : c.WF e h)
    (hf : Fits ext e h c f) : f.graph.nodes.Nodup := by
  obtain ⟨sc, a, g, h1, h2, h3, h4, -⟩ := fits_graph horder hw hf
  have : f.graph.nodes = g.nodes := by rw [h4]; split_ifs <;> rfl
  rw [this]
  exact fromPandas_nodes h3

/-- The common attributes asked for: the weak styles unless the caller gives arguments. -/
def commonArgs (st : Styles) : Option (PlotArgs Str × Option Str) → PlotArgs Str
  | none => { allNode := some st.node.weak, allEdge := some st.edge.weak }
  | some a => a.1

/-- The attributes of the whole asked for: the scale unless the caller gives arguments. -/
def graphArg {V : Type} (t : Texts V) (h : List (Attrs V)) (k : Str) : Option (PlotArgs Str × Option Str) → Option V
  | none => if k = scaleKey then some t.half else none
  | some a => given h a.1.graph k

theorem deref_append {V : Type} (h l : List (Attrs V)) {i : ℕ} (hi : i < h.length) : deref (h ++ l) i = deref h i := by
  unfold deref
  rw [List.getD_append _ _ _ _ hi]

theorem zipIdx_refs {α : Type} (l : List α) (n : ℕ) : (l.zipIdx n).map (·.2) = List.range' n l.length := by
  rw [List.zipIdx_map_snd]

/-- **C119**: `plot_dag` of a fitted estimator. Neither the estimator nor the objects of the caller and the default styles are changed. The plot
has the nodes of the fitted graph and its edges; with `enforce_dag=True` no directed cycle, and only edges missing that are at most as large as those
plotted, none if the fitted graph has no cycle. Attributes are those given, the weak style if none are given, then the default ones, then those of
the graph; the layout program is `neato` unless given. -/
theorem plotDag_correct {V : Type} {ext : Ext} {e : Est} {h : Heap} {c : Call} {f : Fit} (horder : ∀ es, (ext.order es).Perm es) (hw : c.WF e h)
    (hf : Fits ext e h c f) (t : Texts V) (st : Styles) (own : Attrs V) (hp : List (Attrs V)) (enforce : Bool)
    (kwargs : Option (PlotArgs Str × Option Str)) (hd : ∀ d ∈ hp, (d.map (·.1)).Nodup) (hn : ∀ n, ((t.nodeAttrs n).map (·.1)).Nodup)
    (he : ∀ d, ((t.edgeAttrs d).map (·.1)).Nodup) (ha : (commonArgs st kwargs).WF hp.length) (hns : st.node.normal < hp.length)
    (hes : st.edge.normal < hp.length) (hgs : st.graph < hp.length) :
    ∃ hp' p prog, plotDag t st own hp { e with fitted := some f } enforce kwargs = (hp', { e with fitted := some f }, .ok (p, prog)) ∧
      (∀ i < hp.length, deref hp' i = deref hp i) ∧
      p.nodes.map (·.1) = f.graph.nodes ∧
      (∃ es : List (LEdge Str), p.edges.map (·.1) = es.map (fun d => (d.src, d.dst)) ∧ (enforce = false → es = f.graph.edges) ∧
        (enforce = true → es.Sublist f.graph.edges ∧ ¬ HasCycle es ∧ (¬ HasCycle f.graph.edges → es = f.graph.edges) ∧
          ∀ d ∈ f.graph.edges, d ∉ es → ∀ k ∈ es, |d.weight| ≤ |k.weight|) ∧
        ∀ d ∈ es, ∃ l, ((d.src, d.dst), l) ∈ p.edges ∧ ∀ k, get? l k =
          (givenFor hp (commonArgs st kwargs).edge (d.src, d.dst) k).orElse fun _ => (given hp (commonArgs st kwargs).allEdge k).orElse fun _ =>
            (get? (deref hp st.edge.normal) k).orElse fun _ => get? (t.edgeAttrs d) k) ∧
      (∀ n ∈ f.graph.nodes, ∃ l, (n, l) ∈ p.nodes ∧ ∀ k, get? l k =
        (givenFor hp (commonArgs st kwargs).node n k).orElse fun _ => (given hp (commonArgs st kwargs).allNode k).orElse fun _ =>
          (get? (deref hp st.node.normal) k).orElse fun _ => if k = labelKey then some (t.label n) else get? (t.nodeAttrs n) k) ∧
      (∀ k, get? p.graph k = (graphArg t hp k kwargs).orElse fun _ => (get? (deref hp st.graph) k).orElse fun _ => get? own k) ∧
      prog = (kwargs.bind (·.2)).getD neato := by
  have hnn := fits_nodes_nodup horder hw hf
  have hpairs := fits_pairs horder hw hf
  set es := if enforce then tillDag f.graph.edges.length f.graph.edges else f.graph.edges with hes'
  have hspec := tillDag_spec f.graph.edges.length f.graph.edges le_rfl hpairs
  have hsub : es.Sublist f.graph.edges := by
    rw [hes']; split_ifs
    · exact hspec.1
    · exact List.Sublist.refl _
  have hpe : (es.map fun d => (d.src, d.dst)).Nodup := hpairs.sublist (hsub.map _)
  obtain ⟨X, hX, hXd⟩ : ∃ X, (plotKwargs t st (copyGraph t hp f.graph.nodes es).1 kwargs).1 =
      hp ++ ((f.graph.nodes.map t.nodeAttrs ++ es.map t.edgeAttrs) ++ X) ∧ ∀ d ∈ X, (d.map (·.1)).Nodup := by
    cases kwargs with
    | none => exact ⟨[[(scaleKey, t.half)]], by simp [plotKwargs, copyGraph], by simp⟩
    | some a => exact ⟨[], by simp [plotKwargs, copyGraph], by simp⟩
  set h2 := (plotKwargs t st (copyGraph t hp f.graph.nodes es).1 kwargs).1 with hh2
  set a := (plotKwargs t st (copyGraph t hp f.graph.nodes es).1 kwargs).2 with haa
  have hlen : hp.length ≤ h2.length := by rw [hX, List.length_append]; omega
  have hlen2 : hp.length + f.graph.nodes.length + es.length ≤ h2.length := by
    rw [hX]; simp only [List.length_append, List.length_map]; omega
  have hder : ∀ i < hp.length, deref h2 i = deref hp i := fun i hi => by rw [hX, deref_append _ _ hi]
  have hgiven : ∀ (o : Option ℕ) (k : Str), (∀ r, o = some r → r < hp.length) → given h2 o k = given hp o k := by
    intro o k ho
    cases o with
    | none => rfl
    | some r =>
      change get? (deref h2 r) k = get? (deref hp r) k
      rw [hder r (ho r rfl)]
  have hfor : ∀ {A : Type} [DecidableEq A] (o : Option (List (A × ℕ))) (x : A) (k : Str), (∀ l, o = some l → ∀ q ∈ l, q.2 < hp.length) →
      givenFor h2 o x k = givenFor hp o x k := by
    intro A _ o x k ho
    unfold givenFor
    refine hgiven _ k ?_
    intro r hr
    cases o with
    | none => cases hr
    | some l => exact ho l rfl (x, r) (Verif.Dict.mem_of_get? hr)
  have hargs : a.node = (commonArgs st kwargs).node ∧ a.edge = (commonArgs st kwargs).edge ∧ a.allNode = (commonArgs st kwargs).allNode ∧
      a.allEdge = (commonArgs st kwargs).allEdge := by
    rw [haa]
    cases kwargs <;> exact ⟨rfl, rfl, rfl, rfl⟩
  have hga : (∀ r, a.graph = some r → r < h2.length) ∧ ∀ k, given h2 a.graph k = graphArg t hp k kwargs := by
    cases kwargs with
    | none =>
      have e1 : a.graph = some (copyGraph t hp f.graph.nodes es).1.length := rfl
      have e2 : h2 = (copyGraph t hp f.graph.nodes es).1 ++ [[(scaleKey, t.half)]] := rfl
      refine ⟨?_, ?_⟩
      · intro r hr
        rw [e1] at hr
        cases hr
        rw [e2, List.length_append]
        simp
      · intro k
        rw [e1, e2]
        unfold given graphArg deref
        simp only [Option.bind_some]
        rw [List.getD_append_right _ _ _ _ le_rfl, Nat.sub_self]
        change get? [(scaleKey, t.half)] k = _
        unfold get?
        by_cases hk : k = scaleKey
        · rw [if_pos hk, hk]; simp
        · rw [if_neg hk]
          simp only [if_neg (Ne.symm hk)]
          rfl
    | some b =>
      have e1 : a.graph = b.1.graph := rfl
      refine ⟨?_, ?_⟩
      · intro r hr
        exact Nat.lt_of_lt_of_le (ha.graph r hr) hlen
      · intro k
        rw [e1]
        exact hgiven _ k ha.graph
  have hg : (copyGraph t hp f.graph.nodes es).2.WF h2.length := by
    refine ⟨?_, ?_, ?_, ?_⟩
    · change ((f.graph.nodes.zipIdx hp.length).map _).Nodup
      rw [List.zipIdx_map_fst]; exact hnn
    · change (((es.map fun e : LEdge Str => (e.src, e.dst)).zipIdx (hp.length + f.graph.nodes.length)).map _).Nodup
      rw [List.zipIdx_map_fst]; exact hpe
    · change ((f.graph.nodes.zipIdx hp.length).map _ ++ ((es.map fun e : LEdge Str => (e.src, e.dst)).zipIdx (hp.length + f.graph.nodes.length)).map _).Nodup
      rw [List.zipIdx_map_snd, List.zipIdx_map_snd, List.range'_append_1]
      exact List.nodup_range'
    · intro r hr
      change r ∈ (f.graph.nodes.zipIdx hp.length).map _ ++ ((es.map fun e : LEdge Str => (e.src, e.dst)).zipIdx (hp.length + f.graph.nodes.length)).map _ at hr
      rw [List.zipIdx_map_snd, List.zipIdx_map_snd, List.range'_append_1, List.mem_range'_1, List.length_map] at hr
      omega
  have hd2 : ∀ d ∈ h2, (d.map (·.1)).Nodup := by
    intro d hdm
    rw [hX] at hdm
    simp only [List.mem_append, List.mem_map] at hdm
    rcases hdm with h | ((⟨n, -, rfl⟩ | ⟨n, -, rfl⟩) | h)
    · exact hd d h
    · exact hn n
    · exact he n
    · exact hXd d h
  have hawf : a.WF h2.length := by
    obtain ⟨a1, a2, a3, a4⟩ := hargs
    refine ⟨fun r hr => Nat.lt_of_lt_of_le (ha.allNode r (a3 ▸ hr)) hlen, fun r hr => Nat.lt_of_lt_of_le (ha.allEdge r (a4 ▸ hr)) hlen,
      hga.1, fun l hl => ?_, fun l hl => ?_⟩
    · obtain ⟨b1, b2⟩ := ha.node l (a1 ▸ hl)
      exact ⟨b1, fun p hp => Nat.lt_of_lt_of_le (b2 p hp) hlen⟩
    · obtain ⟨b1, b2⟩ := ha.edge l (a2 ▸ hl)
      exact ⟨b1, fun p hp => Nat.lt_of_lt_of_le (b2 p hp) hlen⟩
  obtain ⟨c1, -, c3, c4, c5, c6, c7⟩ := plotStructure_correct t.label st.node st.edge st.graph own h2 (copyGraph t hp f.graph.nodes es).2 a hd2 hg hawf
    (Nat.lt_of_lt_of_le hns hlen) (Nat.lt_of_lt_of_le hes hlen) (Nat.lt_of_lt_of_le hgs hlen)
  refine ⟨_, _, _, rfl, fun i hi => (c1 i (Nat.lt_of_lt_of_le hi hlen)).trans (hder i hi), ?_, ⟨es, ?_, ?_, ?_, ?_⟩, ?_, ?_, rfl⟩
  · refine c3.trans ?_
    change (f.graph.nodes.zipIdx hp.length).map _ = _
    rw [List.zipIdx_map_fst]
  · refine c4.trans ?_
    change ((es.map fun e : LEdge Str => (e.src, e.dst)).zipIdx (hp.length + f.graph.nodes.length)).map _ = _
    rw [List.zipIdx_map_fst]
  · intro h; rw [hes', h]; rfl
  · intro h
    have : es = tillDag f.graph.edges.length f.graph.edges := by rw [hes', h]; rfl
    rw [this]
    exact hspec
  · intro d hde
    obtain ⟨j, hj⟩ := List.getElem?_of_mem hde
    obtain ⟨hj1, hj2⟩ := List.getElem?_eq_some_iff.1 hj
    have hmem : ((d.src, d.dst), hp.length + f.graph.nodes.length + j) ∈ (copyGraph t hp f.graph.nodes es).2.edges := by
      change _ ∈ (es.map fun e : LEdge Str => (e.src, e.dst)).zipIdx (hp.length + f.graph.nodes.length)
      rw [List.mk_add_mem_zipIdx_iff_getElem?, List.getElem?_map, hj]
      rfl
    obtain ⟨l, hl, hk⟩ := c6 _ _ hmem
    refine ⟨l, hl, fun k => ?_⟩
    rw [hk k, hargs.2.1, hargs.2.2.2, hfor _ _ _ fun l hl => (ha.edge l hl).2, hgiven _ _ ha.allEdge, hder _ hes]
    have : deref h2 (hp.length + f.graph.nodes.length + j) = t.edgeAttrs d := by
      unfold deref
      rw [hX, List.getD_append_right _ _ _ _ (by omega), List.getD_append _ _ _ _ (by simp; omega),
        List.getD_append_right _ _ _ _ (by simp; omega), List.length_map,
        show hp.length + f.graph.nodes.length + j - hp.length - f.graph.nodes.length = j by omega, List.getD_eq_getElem?_getD, List.getElem?_map, hj]
      rfl
    rw [this]
  · intro n hnm
    obtain ⟨j, hj⟩ := List.getElem?_of_mem hnm
    obtain ⟨hj1, hj2⟩ := List.getElem?_eq_some_iff.1 hj
    have hmem : (n, hp.length + j) ∈ (copyGraph t hp f.graph.nodes es).2.nodes := by
      change _ ∈ f.graph.nodes.zipIdx hp.length
      rw [List.mk_add_mem_zipIdx_iff_getElem?, hj]
    obtain ⟨l, hl, hk⟩ := c5 _ _ hmem
    refine ⟨l, hl, fun k => ?_⟩
    rw [hk k, hargs.1, hargs.2.2.1, hfor _ _ _ fun l hl => (ha.node l hl).2, hgiven _ _ ha.allNode, hder _ hns]
    have : deref h2 (hp.length + j) = t.nodeAttrs n := by
      unfold deref
      rw [hX, List.getD_append_right _ _ _ _ (by omega), List.getD_append _ _ _ _ (by simp; omega),
        List.getD_append _ _ _ _ (by simp; omega), show hp.length + j - hp.length = j by omega, List.getD_eq_getElem?_getD, List.getElem?_map, hj]
      rfl
    rw [this]
  · intro k
    refine (c7 k).trans ?_
    rw [hga.2 k, hder _ hgs]

/-- **C119**: without a fitted graph `plot_dag` raises and changes nothing. -/
theorem plotDag_unfitted {V : Type} (t : Texts V) (st : Styles) (own : Attrs V) (hp : List (Attrs V)) {e : Est} (he : e.fitted = none) (enforce : Bool)
    (kwargs : Option (PlotArgs Str × Option Str)) : plotDag t st own hp e enforce kwargs = (hp, e, .error .valueError) := by
  unfold plotDag
  rw [he]

/-- Default styles with different widths, everywhere. -/
def exStyles : List (Attrs Str) × Styles :=
  ([[(['w'], ['1'])], [(['w'], ['2'])], [(['w'], ['3'])], [(['d'], ['4'])]], ⟨⟨0, 1, 2⟩, ⟨0, 1, 2⟩, 3⟩)

/-- The hypotheses of `plotDag_correct` are met by a fitted regressor with an edge, with and without `enforce_dag`. -/
example (enforce : Bool) : ∃ ext f, (∀ es, (ext.order es).Perm es) ∧ exCall.WF (exReg false) exHeap ∧ Fits ext (exReg false) exHeap exCall f ∧
    (∀ d ∈ exStyles.1, (d.map (·.1)).Nodup) ∧ (commonArgs exStyles.2 none).WF exStyles.1.length ∧
    ∃ hp p, plotDag ⟨id, fun _ => [], fun _ => [], ['5']⟩ exStyles.2 [] exStyles.1 { exReg false with fitted := some f } enforce none =
      (hp, { exReg false with fitted := some f }, .ok (p, neato)) ∧ get? p.graph scaleKey = some ['5'] ∧
      (enforce = false → ∃ l, ((['a'], ['y']), l) ∈ p.edges ∧ get? l ['w'] = some ['1']) := by
  obtain ⟨ext, f, h1, h2, h3, h4, h5, -⟩ := reg_example false
  have hwf : (commonArgs exStyles.2 none).WF exStyles.1.length := by
    refine ⟨?_, ?_, ?_, ?_, ?_⟩
    · intro r hr; cases hr; decide
    · intro r hr; cases hr; decide
    · intro r hr; cases hr
    · intro l hl; cases hl
    · intro l hl; cases hl
  obtain ⟨hp, p, prog, e1, -, -, ⟨es, -, e2, -, e3⟩, -, e4, e5⟩ := plotDag_correct (V := Str) h2 h3 h4 ⟨id, fun _ => [], fun _ => [], ['5']⟩ exStyles.2 [] exStyles.1
    enforce none (by decide) (by intro n; exact List.nodup_nil) (by intro n; exact List.nodup_nil) hwf (by decide) (by decide) (by decide)
  refine ⟨ext, f, h2, h3, h4, by decide, hwf, hp, p, by rw [e1, e5]; rfl, by rw [e4]; rfl, ?_⟩
  intro hen
  obtain ⟨d, hd, hd1, hd2⟩ := h5 rfl
  obtain ⟨l, hl, hk⟩ := e3 d (by rw [e2 hen]; exact hd)
  rw [hd1, hd2] at hl
  exact ⟨l, hl, by rw [hk]; rfl⟩

end Verif.Sklearn
