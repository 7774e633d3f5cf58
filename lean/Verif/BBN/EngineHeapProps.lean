import Verif.BBN.EngineHeapSim

/-!
# Engines share nothing
-/

namespace Verif.BBN

section
variable {V S K : Type} [LinearOrder V] [DecidableEq S] [Field K] [LinearOrder K] [IsStrictOrderedRing K]

/-! ### Creation -/

theorem create_rep {own : Ref → Owner} {h : Heap V S K} {bn : List (V × Frame V S K)} (hg : GoodNet bn)
    (hfree : ∀ r, h.length ≤ r → own r = .free) (okName : V → Bool) (k : ℕ) :
    (∃ err, HEngine.create okName h bn = (h, .error err) ∧ Engine.create okName bn = .error err) ∨
    ∃ h' own' e E N No, HEngine.create okName h bn = (h', .ok e) ∧ Engine.create okName bn = .ok E ∧
      EngAt own' h' k e E bn N No ∧ (∀ r, r < h.length → own' r = own r ∧ h'[r]? = h[r]?) ∧
      ∀ r, h'.length ≤ r → own' r = .free := by
  have hf := hg.1
  by_cases c1 : (bn.any fun q => !okName q.1) = true
  · left
    refine ⟨.valueError, ?_, ?_⟩
    · unfold HEngine.create; rw [if_pos c1]
    · unfold Engine.create; rw [if_pos c1]
  have c2 : ¬ bn.isEmpty = true := by
    intro hb
    have : bn = [] := by simpa using hb
    subst this
    exact hf.nonempty rfl
  right
  obtain ⟨nodes, g1, g2, g3⟩ := Engine.generate_ok
    (⟨domOf bn, cpdsOf bn, cpdsOf bn, [], []⟩ : Engine V S K) hf.wf hf.acyclic
  set E : Engine V S K := ⟨domOf bn, cpdsOf bn, cpdsOf bn, createFns (cpdsOf bn), nodes⟩ with hE
  have hEc : Engine.create okName bn = .ok E := by
    unfold Engine.create
    rw [if_neg c1, if_neg c2]
    simp only [g3]
  have hinv : E.Inv bn := (Engine.create_inv hf hEc).1
  obtain ⟨t₁, a1, a2, a3, a4⟩ := newCpds_spec h (nestedOf bn)
  set h₁ := (newCpds h (nestedOf bn)).1 with hh₁
  set c := (newCpds h (nestedOf bn)).2 with hc
  obtain ⟨t₂, b1, b2, b3, b4⟩ := newCpds_spec h₁ (nestedOf bn)
  set h₂ := (newCpds h₁ (nestedOf bn)).1 with hh₂
  set o := (newCpds h₁ (nestedOf bn)).2 with ho
  obtain ⟨t₃, d1, d2⟩ := newDomains_spec h₂ bn
  set h₃ := (newDomains h₂ bn).1 with hh₃
  set d := (newDomains h₂ bn).2 with hd
  have hdc : deepcopy h₁ c = some (h₂, o) := by
    unfold deepcopy
    rw [a4.read]; rfl
  have l1 : h.length ≤ c := a3
  have l2 : h₁.length = c + 1 := a2
  have l3 : h₁.length ≤ o := b3
  have l4 : h₂.length = o + 1 := b2
  have l5 : h₂.length ≤ h₃.length := by rw [d1, List.length_append]; exact Nat.le_add_right _ _
  let own' : Ref → Owner := fun r =>
    if r < h.length then own r else if r = c then .eng k else if r < h₃.length then .frozen else .free
  have o1 : ∀ r, r < h.length → own' r = own r := fun r hr => if_pos hr
  have o2 : own' c = .eng k := by
    simp only [own', if_neg (Nat.not_lt.2 l1), if_true]
  have o3 : ∀ r, h.length ≤ r → r ≠ c → r < h₃.length → own' r = .frozen := fun r hr hrc hr' => by
    simp only [own', if_neg (Nat.not_lt.2 hr), if_neg hrc, if_pos hr']
  have o4 : ∀ r, h₃.length ≤ r → own' r = .free := fun r hr => by
    have : c < h₃.length := by
      refine Nat.lt_of_lt_of_le ?_ l5
      rw [l4]
      exact Nat.lt_succ_of_lt (Nat.lt_of_lt_of_le (l2 ▸ Nat.lt_succ_self c) l3)
    have h1 : ¬ r < h.length := Nat.not_lt.2 (le_trans (le_trans l1 this.le) hr)
    have h2 : r ≠ c := fun heq => absurd this (Nat.not_lt.2 (heq ▸ hr))
    simp only [own', if_neg h1, if_neg h2, if_neg (Nat.not_lt.2 hr)]
  have s1 : ∀ r, r < h₁.length → h₂[r]? = h₁[r]? := fun r hr => by rw [b1]; exact getElem?_append_old hr
  have s2 : ∀ r, r < h₂.length → h₃[r]? = h₂[r]? := fun r hr => by rw [d1]; exact getElem?_append_old hr
  have hc1 : c < h₁.length := l2 ▸ Nat.lt_succ_self c
  have h12 : h₁.length ≤ h₂.length := le_trans l3 (l4 ▸ Nat.le_succ o)
  have s3 : ∀ r, r < h₁.length → h₃[r]? = h₁[r]? := fun r hr => by
    rw [s2 r (Nat.lt_of_lt_of_le hr h12), s1 r hr]
  -- the current and the original dictionaries, seen from the final heap
  have k1 : CpdsAt (fun r => own' r = .frozen) h₃ c (nestedOf bn) := by
    refine a4.congr (s3 c hc1) (fun r hr => s3 r (lt_trans hr.2 hc1)) fun r hr => o3 r hr.1 hr.2.ne ?_
    exact Nat.lt_of_lt_of_le (lt_trans hr.2 hc1) (le_trans h12 l5)
  have ho2 : o < h₂.length := l4 ▸ Nat.lt_succ_self o
  have k2 : CpdsAt (fun r => own' r = .frozen) h₃ o (nestedOf bn) := by
    refine b4.congr (s2 o ho2) (fun r hr => s2 r (lt_trans hr.2 ho2)) fun r hr => ?_
    refine o3 r (le_trans (le_trans l1 hc1.le) hr.1) (Nat.lt_of_lt_of_le hc1 hr.1).ne' ?_
    exact Nat.lt_of_lt_of_le (lt_trans hr.2 ho2) l5
  have k3 : DomainsAt (fun r => own' r = .frozen) h₃ d (bn.map fun q => (q.1, q.2.index)) := by
    refine d2.congr (fun _ _ => rfl) fun r hr => ?_
    exact o3 r (le_trans (le_trans (le_trans l1 hc1.le) h12) hr.1)
      (Nat.lt_of_lt_of_le (Nat.lt_of_lt_of_le hc1 h12) hr.1).ne' hr.2
  have hrep := nestedOf_rep hg
  have hgen := generate_rep (dom := domOf bn) (e := ⟨c, o, d, [], []⟩) ⟨rfl, rfl, rfl⟩ k1
    (E := ⟨domOf bn, cpdsOf bn, cpdsOf bn, [], []⟩) hrep g3
  refine ⟨h₃, own', HEngine.shape c o d E, E, nestedOf bn, nestedOf bn, ?_, hEc, ?_, ?_, o4⟩
  · unfold HEngine.create
    rw [if_neg c1, if_neg c2]
    simp only [← hh₁, ← hc, hdc, ← hh₃, ← hd, hgen]
  · exact
      { own_cpds := o2
        cpds := k1
        cpds_rep := hrep
        own_orig := o3 o (le_trans (le_trans l1 hc1.le) l3) (Nat.lt_of_lt_of_le hc1 l3).ne' (Nat.lt_of_lt_of_le ho2 l5)
        orig := k2
        orig_rep := hrep
        doms := k3
        shape := rfl
        inv := hinv
        good := hg }
  · intro r hr
    refine ⟨o1 r hr, ?_⟩
    have hr1 : r < h₁.length := Nat.lt_of_lt_of_le hr (le_trans l1 hc1.le)
    rw [s3 r hr1, a1]
    exact getElem?_append_old hr

/-! ### The whole world -/

/-- The networks are on the heap. -/
def NetsAt (own : Ref → Owner) (h : Heap V S K) (refs : List Ref) (ns : List (List (V × Frame V S K))) : Prop :=
  refs.length = ns.length ∧ ∀ i r, refs[i]? = some r → own r = .net i ∧
    ∃ bn, ns[i]? = some bn ∧ h[r]? = some (.net bn)

/-- The dictionaries of the caller are on the heap. -/
def DatasAt (own : Ref → Owner) (h : Heap V S K) (refs : List Ref) (ds : List (Data V S K)) : Prop :=
  refs.length = ds.length ∧ ∀ j r, refs[j]? = some r → own r = .data j ∧
    ∃ d, ds[j]? = some d ∧ d.Valid ∧ h[r]? = some (.data d)

/-- The engines are on the heap. -/
def EngsAt (own : Ref → Owner) (h : Heap V S K) (es : List (HEngine V)) (Es : List (Engine V S K)) : Prop :=
  es.length = Es.length ∧ ∀ k e, es[k]? = some e → ∃ E bn N No, Es[k]? = some E ∧ EngAt own h k e E bn N No

/-- The heap holds exactly the values of the specification, each at addresses of its own. -/
structure Holds (own : Ref → Owner) (w : World V S K) (a : Apart V S K) : Prop where
  free : ∀ r, w.heap.length ≤ r → own r = .free
  nets : NetsAt own w.heap w.nets a.nets
  datas : DatasAt own w.heap w.handles a.datas
  engs : EngsAt own w.heap w.engines a.engines

section
variable {own own' : Ref → Owner} {h h' : Heap V S K}

omit [LinearOrder V] [DecidableEq S] [Field K] [LinearOrder K] [IsStrictOrderedRing K] in
theorem NetsAt.frame {refs : List Ref} {ns : List (List (V × Frame V S K))} (hn : NetsAt own h refs ns)
    (hk : ∀ r i, own r = .net i → own' r = .net i ∧ h'[r]? = h[r]?) : NetsAt own' h' refs ns := by
  refine ⟨hn.1, fun i r hr => ?_⟩
  obtain ⟨h1, bn, h2, h3⟩ := hn.2 i r hr
  exact ⟨(hk r i h1).1, bn, h2, by rw [(hk r i h1).2]; exact h3⟩

omit [LinearOrder V] [DecidableEq S] [Field K] [LinearOrder K] [IsStrictOrderedRing K] in
theorem DatasAt.frame {refs : List Ref} {ds : List (Data V S K)} (hn : DatasAt own h refs ds)
    (hk : ∀ r i, own r = .data i → own' r = .data i ∧ h'[r]? = h[r]?) : DatasAt own' h' refs ds := by
  refine ⟨hn.1, fun i r hr => ?_⟩
  obtain ⟨h1, d, h2, hv, h3⟩ := hn.2 i r hr
  exact ⟨(hk r i h1).1, d, h2, hv, by rw [(hk r i h1).2]; exact h3⟩

theorem EngsAt.frame {es : List (HEngine V)} {Es : List (Engine V S K)} (hn : EngsAt own h es Es)
    (h1 : ∀ r, own r = .frozen → own' r = .frozen ∧ h'[r]? = h[r]?)
    (h2 : ∀ r k, own r = .eng k → own' r = .eng k ∧ h'[r]? = h[r]?) : EngsAt own' h' es Es := by
  refine ⟨hn.1, fun k e hr => ?_⟩
  obtain ⟨E, bn, N, No, h3, h4⟩ := hn.2 k e hr
  exact ⟨E, bn, N, No, h3, h4.congr h1 (h2 _ _ h4.own_cpds)⟩

/-- An object is added to the heap. -/
theorem Holds.alloc {w : World V S K} {a : Apart V S K} (hw : Holds own w a) (o : Obj V S K) (x : Owner) :
    let own' := Function.update own w.heap.length x
    (∀ r, (w.heap ++ [o]).length ≤ r → own' r = .free) ∧ NetsAt own' (w.heap ++ [o]) w.nets a.nets ∧
      DatasAt own' (w.heap ++ [o]) w.handles a.datas ∧ EngsAt own' (w.heap ++ [o]) w.engines a.engines := by
  intro own'
  have hk : ∀ r, own r ≠ .free → own' r = own r ∧ (w.heap ++ [o])[r]? = w.heap[r]? := by
    intro r hr
    have hlt : r < w.heap.length := by
      by_contra hc
      exact hr (hw.free r (Nat.le_of_not_lt hc))
    exact ⟨Function.update_of_ne hlt.ne _ _, getElem?_append_old hlt⟩
  have hk' : ∀ r y, own r = y → y ≠ .free → own' r = y ∧ (w.heap ++ [o])[r]? = w.heap[r]? := by
    intro r y hy hne
    have := hk r (hy ▸ hne)
    exact ⟨this.1.trans hy, this.2⟩
  refine ⟨fun r hr => ?_, hw.nets.frame fun r i hr => hk' r _ hr (fun h => by cases h),
    hw.datas.frame fun r i hr => hk' r _ hr (fun h => by cases h),
    hw.engs.frame (fun r hr => hk' r _ hr (fun h => by cases h)) fun r k hr => hk' r _ hr (fun h => by cases h)⟩
  rw [List.length_append] at hr
  have h1 : r ≠ w.heap.length := fun heq => by
    rw [heq] at hr
    exact absurd hr (Nat.not_le.2 (Nat.lt_succ_self _))
  show Function.update own w.heap.length x r = _
  rw [Function.update_of_ne h1]
  exact hw.free r (le_trans (Nat.le_add_right _ _) hr)

/-- What is owned has been allocated. -/
theorem Holds.lt {w : World V S K} {a : Apart V S K} (hw : Holds own w a) {r : Ref} {y : Owner} (hy : own r = y)
    (hne : y ≠ .free) : r < w.heap.length := by
  by_contra hc
  exact hne (hy ▸ hw.free r (Nat.le_of_not_lt hc))

/-- A network is overwritten. -/
theorem Holds.setNet {w : World V S K} {a : Apart V S K} (hw : Holds own w a) {i : ℕ} {r : Ref}
    (hi : w.nets[i]? = some r) (bn : List (V × Frame V S K)) :
    Holds own { w with heap := w.heap.set r (.net bn) } { a with nets := a.nets.set i bn } := by
  have ho := (hw.nets.2 i r hi).1
  have hlt := hw.lt ho (fun h => by cases h)
  have hk : ∀ r' y, own r' = y → y ≠ .net i → own r' = y ∧ (w.heap.set r (.net bn))[r']? = w.heap[r']? := by
    intro r' y hy hne
    refine ⟨hy, List.getElem?_set_ne ?_⟩
    rintro rfl
    exact hne (hy.symm.trans ho)
  refine ⟨fun r' hr => hw.free r' (by simpa using hr), ⟨by simpa using hw.nets.1, fun j r' hj => ?_⟩,
    hw.datas.frame fun r' j hr => hk r' _ hr (fun h => by cases h),
    hw.engs.frame (fun r' hr => hk r' _ hr (fun h => by cases h)) fun r' k hr => hk r' _ hr (fun h => by cases h)⟩
  obtain ⟨h1, b, h2, h3⟩ := hw.nets.2 j r' hj
  refine ⟨h1, ?_⟩
  by_cases hji : j = i
  · subst hji
    have : r' = r := by
      have := hj.symm.trans hi
      exact Option.some.inj this
    subst this
    refine ⟨bn, List.getElem?_set_self ?_, List.getElem?_set_self hlt⟩
    exact (List.getElem?_eq_some_iff.1 h2).1
  · refine ⟨b, ?_, ?_⟩
    · rw [← h2]; exact List.getElem?_set_ne (Ne.symm hji)
    · rw [← h3]
      exact (hk r' _ h1 (fun h => by cases h; exact hji rfl)).2

/-- A dictionary of the caller is overwritten. -/
theorem Holds.setData {w : World V S K} {a : Apart V S K} (hw : Holds own w a) {i : ℕ} {r : Ref}
    (hi : w.handles[i]? = some r) {d : Data V S K} (hd : d.Valid) :
    Holds own { w with heap := w.heap.set r (.data d) } { a with datas := a.datas.set i d } := by
  have ho := (hw.datas.2 i r hi).1
  have hlt := hw.lt ho (fun h => by cases h)
  have hk : ∀ r' y, own r' = y → y ≠ .data i → own r' = y ∧ (w.heap.set r (.data d))[r']? = w.heap[r']? := by
    intro r' y hy hne
    refine ⟨hy, List.getElem?_set_ne ?_⟩
    rintro rfl
    exact hne (hy.symm.trans ho)
  refine ⟨fun r' hr => hw.free r' (by simpa using hr), hw.nets.frame fun r' j hr => hk r' _ hr (fun h => by cases h),
    ⟨by simpa using hw.datas.1, fun j r' hj => ?_⟩,
    hw.engs.frame (fun r' hr => hk r' _ hr (fun h => by cases h)) fun r' k hr => hk r' _ hr (fun h => by cases h)⟩
  obtain ⟨h1, b, h2, hv, h3⟩ := hw.datas.2 j r' hj
  refine ⟨h1, ?_⟩
  by_cases hji : j = i
  · subst hji
    have : r' = r := by
      have := hj.symm.trans hi
      exact Option.some.inj this
    subst this
    refine ⟨d, List.getElem?_set_self ?_, hd, List.getElem?_set_self hlt⟩
    exact (List.getElem?_eq_some_iff.1 h2).1
  · refine ⟨b, ?_, hv, ?_⟩
    · rw [← h2]; exact List.getElem?_set_ne (Ne.symm hji)
    · rw [← h3]
      exact (hk r' _ h1 (fun h => by cases h; exact hji rfl)).2

theorem getElem?_concat_cases {α : Type} {l : List α} {x y : α} {i : ℕ} (h : (l ++ [x])[i]? = some y) :
    l[i]? = some y ∨ (i = l.length ∧ y = x) := by
  rcases lt_trichotomy i l.length with h1 | h1 | h1
  · left; rwa [List.getElem?_append_left h1] at h
  · right
    subst h1
    rw [List.getElem?_concat_length] at h
    exact ⟨rfl, (Option.some.inj h).symm⟩
  · rw [List.getElem?_eq_none (by simp; omega)] at h
    cases h

/-- A new network. -/
theorem Holds.newNet {w : World V S K} {a : Apart V S K} (hw : Holds own w a) (bn : List (V × Frame V S K)) :
    ∃ own', Holds own' { w with heap := w.heap ++ [.net bn], nets := w.nets ++ [w.heap.length] }
      { a with nets := a.nets ++ [bn] } := by
  obtain ⟨h1, h2, h3, h4⟩ := hw.alloc (.net bn) (.net w.nets.length)
  refine ⟨_, h1, ⟨by simp [hw.nets.1], fun i r hr => ?_⟩, h3, h4⟩
  rcases getElem?_concat_cases hr with hr' | ⟨rfl, rfl⟩
  · obtain ⟨k1, b, k2, k3⟩ := h2.2 i r hr'
    refine ⟨k1, b, ?_, k3⟩
    rw [← k2]
    exact List.getElem?_append_left (List.getElem?_eq_some_iff.1 k2).1
  · refine ⟨Function.update_self _ _ _, bn, ?_, List.getElem?_concat_length⟩
    rw [hw.nets.1]
    exact List.getElem?_concat_length

/-- A new dictionary of the caller. -/
theorem Holds.newData {w : World V S K} {a : Apart V S K} (hw : Holds own w a) {d : Data V S K} (hd : d.Valid) :
    ∃ own', Holds own' { w with heap := w.heap ++ [.data d], handles := w.handles ++ [w.heap.length] }
      { a with datas := a.datas ++ [d] } := by
  obtain ⟨h1, h2, h3, h4⟩ := hw.alloc (.data d) (.data w.handles.length)
  refine ⟨_, h1, h2, ⟨by simp [hw.datas.1], fun i r hr => ?_⟩, h4⟩
  rcases getElem?_concat_cases hr with hr' | ⟨rfl, rfl⟩
  · obtain ⟨k1, b, k2, hv, k3⟩ := h3.2 i r hr'
    refine ⟨k1, b, ?_, hv, k3⟩
    rw [← k2]
    exact List.getElem?_append_left (List.getElem?_eq_some_iff.1 k2).1
  · refine ⟨Function.update_self _ _ _, d, ?_, hd, List.getElem?_concat_length⟩
    rw [hw.datas.1]
    exact List.getElem?_concat_length

/-- The dictionaries of an answer. -/
theorem Holds.answer {w : World V S K} {a : Apart V S K} (hw : Holds own w a) {out : List (V × List (S × K))}
    (ho : ∀ q ∈ out, (q.2.map Prod.fst).Nodup) :
    ∃ own', Holds own' { w with
        heap := (allocEach (fun h l => Verif.BBN.alloc h (.data (.dist l))) w.heap out).1
        handles := w.handles ++ (allocEach (fun h l => Verif.BBN.alloc h (.data (.dist l))) w.heap out).2.map Prod.snd }
      { a with datas := a.datas ++ out.map fun q => .dist q.2 } := by
  induction out generalizing own w a with
  | nil => exact ⟨own, by simpa [allocEach] using hw⟩
  | cons q l ih =>
    obtain ⟨own', h1⟩ := hw.newData (d := .dist q.2) (ho q (List.mem_cons_self ..))
    obtain ⟨own'', h2⟩ := ih h1 fun p hp => ho p (List.mem_cons_of_mem _ hp)
    refine ⟨own'', ?_⟩
    simpa [allocEach, Verif.BBN.alloc] using h2

/-- A new engine. -/
theorem Holds.create {w : World V S K} {a : Apart V S K} (hw : Holds own w a) {e : HEngine V}
    {E : Engine V S K} {bn : List (V × Frame V S K)} {N No : Nested V S K}
    (he : EngAt own' h' w.engines.length e E bn N No)
    (hold : ∀ r, r < w.heap.length → own' r = own r ∧ h'[r]? = w.heap[r]?)
    (hfree : ∀ r, h'.length ≤ r → own' r = .free) :
    Holds own' { w with heap := h', engines := w.engines ++ [e] } { a with engines := a.engines ++ [E] } := by
  have hk' : ∀ r y, own r = y → y ≠ .free → own' r = y ∧ h'[r]? = w.heap[r]? := by
    intro r y hy h1
    have hlt := hw.lt hy h1
    exact ⟨(hold r hlt).1.trans hy, (hold r hlt).2⟩
  refine ⟨hfree, hw.nets.frame fun r i hr => hk' r _ hr (fun h => by cases h),
    hw.datas.frame fun r i hr => hk' r _ hr (fun h => by cases h), ⟨by simp [hw.engs.1], fun j x hj => ?_⟩⟩
  have hfr := hw.engs.frame (own' := own') (h' := h') (fun r hr => hk' r _ hr (fun h => by cases h))
    fun r k hr => hk' r _ hr (fun h => by cases h)
  rcases getElem?_concat_cases hj with hj' | ⟨rfl, rfl⟩
  · obtain ⟨E', b, N', No', k1, k2⟩ := hfr.2 j x hj'
    refine ⟨E', b, N', No', ?_, k2⟩
    rw [← k1]
    exact List.getElem?_append_left (List.getElem?_eq_some_iff.1 k1).1
  · refine ⟨E, bn, N, No, ?_, he⟩
    rw [hw.engs.1]
    exact List.getElem?_concat_length

/-- An intervention on, or the reset of, engine `k`. -/
theorem Holds.touch {w : World V S K} {a : Apart V S K} (hw : Holds own w a) {k : ℕ} {e' : HEngine V}
    {E' : Engine V S K} {bn : List (V × Frame V S K)} {N No : Nested V S K} (ht : Touches own own' k w.heap h')
    (he : EngAt own' h' k e' E' bn N No) (hk : k < w.engines.length) :
    Holds own' { w with heap := h', engines := w.engines.set k e' } { a with engines := a.engines.set k E' } := by
  have hk' : ∀ r y, own r = y → y ≠ .free → y ≠ .eng k → own' r = y ∧ h'[r]? = w.heap[r]? := by
    intro r y hy h1 h2
    have hlt := hw.lt hy h1
    exact ⟨(ht.old r hlt).trans hy, ht.same r hlt (hy ▸ h2)⟩
  refine ⟨ht.free, hw.nets.frame fun r i hr => hk' r _ hr (fun h => by cases h) (fun h => by cases h),
    hw.datas.frame fun r i hr => hk' r _ hr (fun h => by cases h) (fun h => by cases h), ?_⟩
  obtain ⟨hl, hE⟩ := hw.engs
  refine ⟨by simp only [List.length_set]; exact hl, fun j e hj => ?_⟩
  by_cases hjk : j = k
  · subst hjk
    rw [List.getElem?_set_self hk] at hj
    cases hj
    refine ⟨E', bn, N, No, ?_, he⟩
    exact List.getElem?_set_self (hl ▸ hk)
  · have hj' : w.engines[j]? = some e := by
      rw [← hj]; exact (List.getElem?_set_ne (Ne.symm hjk)).symm
    obtain ⟨E, bn, N, No, h1, h2⟩ := hE j e hj'
    refine ⟨E, bn, N, No, ?_, h2.congr (fun r hr => hk' r _ hr (fun h => by cases h) (fun h => by cases h)) ?_⟩
    · rw [← h1]; exact List.getElem?_set_ne (Ne.symm hjk)
    · exact hk' _ _ h2.own_cpds (fun h => by cases h) (fun h => by cases h; exact hjk rfl)

/-! ### Reading -/

theorem Holds.data_eq {w : World V S K} {a : Apart V S K} (hw : Holds own w a) (j : ℕ) :
    w.data j = a.datas[j]? := by
  unfold World.data
  cases hj : w.handles[j]? with
  | none =>
    rw [List.getElem?_eq_none]
    rw [← hw.datas.1]
    exact List.getElem?_eq_none_iff.1 hj
  | some r =>
    obtain ⟨_, d, h2, _, h3⟩ := hw.datas.2 j r hj
    simp only [h3, h2]

theorem Holds.data_valid {w : World V S K} {a : Apart V S K} (hw : Holds own w a) {j : ℕ} {d : Data V S K}
    (hd : a.datas[j]? = some d) : d.Valid := by
  have hlt : j < w.handles.length := by
    rw [hw.datas.1]
    exact (List.getElem?_eq_some_iff.1 hd).1
  obtain ⟨_, d', h2, hv, _⟩ := hw.datas.2 j _ (List.getElem?_eq_getElem hlt)
  rw [hd] at h2
  cases h2
  exact hv

theorem Holds.net_eq {w : World V S K} {a : Apart V S K} (hw : Holds own w a) (i : ℕ) :
    w.net i = a.nets[i]? := by
  unfold World.net
  cases hj : w.nets[i]? with
  | none =>
    rw [List.getElem?_eq_none]
    rw [← hw.nets.1]
    exact List.getElem?_eq_none_iff.1 hj
  | some r =>
    obtain ⟨_, d, h2, h3⟩ := hw.nets.2 i r hj
    simp only [h3, h2]

theorem Holds.eng_none {w : World V S K} {a : Apart V S K} (hw : Holds own w a) {k : ℕ}
    (hk : w.engines[k]? = none) : a.engines[k]? = none := by
  rw [List.getElem?_eq_none_iff] at hk ⊢
  rw [← hw.engs.1]
  exact hk

theorem Holds.ask_eq {w : World V S K} {a : Apart V S K} (hw : Holds own w a) (nd : Nondet V) (k : ℕ)
    (ev : List (V × S)) : w.ask nd k ev = a.engines[k]?.map fun E => E.query nd ev := by
  unfold World.ask
  cases hk : w.engines[k]? with
  | none => rw [hw.eng_none hk]; rfl
  | some e =>
    obtain ⟨E, bn, N, No, h1, h2⟩ := hw.engs.2 k e hk
    rw [h1]
    simp only [Option.map_some, h2.ask]

/-! ### One call -/

theorem Holds.step {nd : Nondet V} (hnd : nd.Legal) {okName : V → Bool} {w : World V S K} {a : Apart V S K}
    (hw : Holds own w a) {c : Call V S K} (hc : a.CallOk c) :
    (w.step nd okName c).2 = (a.step nd okName c).2 ∧
      ∃ own', Holds own' (w.step nd okName c).1 (a.step nd okName c).1 := by
  cases c with
  | newNet bn =>
    obtain ⟨own', h1⟩ := hw.newNet bn
    exact ⟨rfl, own', h1⟩
  | newData d =>
    obtain ⟨own', h1⟩ := hw.newData (d := d) hc
    exact ⟨rfl, own', h1⟩
  | setNet i bn =>
    simp only [World.step, Apart.step]
    cases hi : w.nets[i]? with
    | none =>
      have : ¬ i < a.nets.length := by
        rw [← hw.nets.1, Nat.not_lt]; exact List.getElem?_eq_none_iff.1 hi
      rw [if_neg this]
      exact ⟨rfl, own, hw⟩
    | some r =>
      have : i < a.nets.length := by
        rw [← hw.nets.1]; exact (List.getElem?_eq_some_iff.1 hi).1
      rw [if_pos this]
      exact ⟨rfl, own, hw.setNet hi bn⟩
  | setData i d =>
    simp only [World.step, Apart.step]
    cases hi : w.handles[i]? with
    | none =>
      have : ¬ i < a.datas.length := by
        rw [← hw.datas.1, Nat.not_lt]; exact List.getElem?_eq_none_iff.1 hi
      rw [if_neg this]
      exact ⟨rfl, own, hw⟩
    | some r =>
      have : i < a.datas.length := by
        rw [← hw.datas.1]; exact (List.getElem?_eq_some_iff.1 hi).1
      rw [if_pos this]
      exact ⟨rfl, own, hw.setData hi hc⟩
  | getData j =>
    simp only [World.step, Apart.step, hw.data_eq]
    cases a.datas[j]? <;> exact ⟨rfl, own, hw⟩
  | create i =>
    simp only [World.step, Apart.step, hw.net_eq]
    cases hi : a.nets[i]? with
    | none => exact ⟨rfl, own, hw⟩
    | some bn =>
      have hg : GoodNet bn := hc bn hi
      rcases create_rep hg hw.free okName w.engines.length with ⟨err, h1, h2⟩ | ⟨h', own', e, E, N, No, h1, h2, h3, h4, h5⟩
      · simp only [h1, h2]
        exact ⟨trivial, own, hw⟩
      · simp only [h1, h2]
        exact ⟨trivial, own', hw.create h3 h4 h5⟩
  | query k j =>
    simp only [World.step, Apart.step, hw.data_eq]
    cases hk : w.engines[k]? with
    | none => rw [hw.eng_none hk]; exact ⟨rfl, own, hw⟩
    | some e =>
      obtain ⟨E, bn, N, No, h1, h2⟩ := hw.engs.2 k e hk
      rw [h1]
      cases hj : a.datas[j]? with
      | none => exact ⟨rfl, own, hw⟩
      | some d =>
        cases d with
        | dist l => exact ⟨rfl, own, hw⟩
        | obs ev =>
          simp only [h2.ask]
          cases hq : E.query nd ev with
          | error err => exact ⟨rfl, own, hw⟩
          | ok out =>
            obtain ⟨own', h3⟩ := hw.answer (h2.answer_valid hnd (hw.data_valid hj) hq)
            exact ⟨by simp only [hw.datas.1], own', h3⟩
  | doLabel k v b s =>
    simp only [World.step, Apart.step]
    cases hk : w.engines[k]? with
    | none => rw [hw.eng_none hk]; exact ⟨rfl, own, hw⟩
    | some e =>
      obtain ⟨E, bn, N, No, h1, h2⟩ := hw.engs.2 k e hk
      obtain ⟨h', own', e', E', out, N', k1, k2, _, k3, k4⟩ := h2.intervene hw.free v (SameArg.label b s)
      simp only [h1, k1, k2]
      exact ⟨trivial, own', hw.touch k3 k4 (List.getElem?_eq_some_iff.1 hk).1⟩
  | doDict k v j =>
    simp only [World.step, Apart.step, hw.data_eq]
    cases hk : w.engines[k]? with
    | none => rw [hw.eng_none hk]; exact ⟨rfl, own, hw⟩
    | some e =>
      obtain ⟨E, bn, N, No, h1, h2⟩ := hw.engs.2 k e hk
      rw [h1]
      cases hj : a.datas[j]? with
      | none => exact ⟨rfl, own, hw⟩
      | some d =>
        cases d with
        | obs ev => exact ⟨rfl, own, hw⟩
        | dist l =>
          obtain ⟨h', own', e', E', out, N', k1, k2, _, k3, k4⟩ :=
            h2.intervene hw.free v (SameArg.dict (d := l) (hw.data_valid hj))
          simp only [k1, k2]
          exact ⟨trivial, own', hw.touch k3 k4 (List.getElem?_eq_some_iff.1 hk).1⟩
  | reset k v =>
    simp only [World.step, Apart.step]
    cases hk : w.engines[k]? with
    | none => rw [hw.eng_none hk]; exact ⟨rfl, own, hw⟩
    | some e =>
      obtain ⟨E, bn, N, No, h1, h2⟩ := hw.engs.2 k e hk
      obtain ⟨h', e', E', out, N', k1, k2, _, k3, k4⟩ := h2.reset hw.free v
      simp only [h1, k1, k2]
      exact ⟨trivial, own, hw.touch k3 k4 (List.getElem?_eq_some_iff.1 hk).1⟩


end

/-! ### Histories -/

theorem Holds.run {nd : Nondet V} (hnd : nd.Legal) {okName : V → Bool} {own : Ref → Owner} {w : World V S K}
    {a : Apart V S K} (hw : Holds own w a) {cs : List (Call V S K)} (hc : Apart.HistOk nd okName a cs) :
    (w.run nd okName cs).2 = (a.run nd okName cs).2 ∧
      ∃ own', Holds own' (w.run nd okName cs).1 (a.run nd okName cs).1 := by
  induction cs generalizing own w a with
  | nil => exact ⟨rfl, own, hw⟩
  | cons c cs ih =>
    obtain ⟨h1, own', h2⟩ := hw.step hnd (okName := okName) hc.1
    obtain ⟨h3, h4⟩ := ih h2 hc.2
    simp only [World.run, Apart.run]
    exact ⟨by rw [h1, h3], h4⟩

theorem Holds.empty : Holds (fun _ => .free) (World.empty : World V S K) (Apart.empty : Apart V S K) :=
  ⟨fun _ _ => rfl, ⟨rfl, fun _ _ h => by cases h⟩, ⟨rfl, fun _ _ h => by cases h⟩, ⟨rfl, fun _ _ h => by cases h⟩⟩

/-- **Nothing is shared.**  Whatever sequence of calls is made - creating networks, engines and dictionaries, queries,
interventions, resets, and arbitrary changes by the caller of its networks, of the dictionaries it
passed in and of the dictionaries it got back, in any order and number - the caller sees exactly what it would see if every network,
every engine and every dictionary were a separate value: afterwards the contents of every dictionary and of every
network are those values, and every engine answers every query as its value does. -/
theorem engines_share_nothing {nd : Nondet V} (hnd : nd.Legal) {okName : V → Bool} {cs : List (Call V S K)}
    (hc : Apart.HistOk nd okName .empty cs) :
    (World.run nd okName .empty cs).2 = (Apart.run nd okName .empty cs).2 ∧
    (∀ j, (World.run nd okName .empty cs).1.data j = (Apart.run nd okName .empty cs).1.datas[j]?) ∧
    (∀ i, (World.run nd okName .empty cs).1.net i = (Apart.run nd okName .empty cs).1.nets[i]?) ∧
    (∀ k ev, (World.run nd okName .empty cs).1.ask nd k ev =
      (Apart.run nd okName .empty cs).1.engines[k]?.map fun E => E.query nd ev) := by
  obtain ⟨h1, own, h2⟩ := Holds.empty.run hnd hc
  exact ⟨h1, h2.data_eq, h2.net_eq, h2.ask_eq nd⟩

/-- The calls that may change the answers of engine `k`. -/
def Call.changes (k : ℕ) : Call V S K → Bool
  | .doLabel k' _ _ _ => k' = k
  | .doDict k' _ _ => k' = k
  | .reset k' _ => k' = k
  | _ => false

/-- The calls that change dictionary `j`. -/
def Call.writes (j : ℕ) : Call V S K → Bool
  | .setData j' _ => j' = j
  | _ => false

omit [IsStrictOrderedRing K] in
theorem Apart.step_engine (nd : Nondet V) (okName : V → Bool) (a : Apart V S K) {c : Call V S K} {k : ℕ}
    (hk : k < a.engines.length) (hc : c.changes k = false) :
    (a.step nd okName c).1.engines[k]? = a.engines[k]? := by
  have hset : ∀ {k' : ℕ} {E : Engine V S K}, decide (k' = k) = false → (a.engines.set k' E)[k]? = a.engines[k]? :=
    fun h => List.getElem?_set_ne (by simpa using h)
  cases c with
  | newNet bn => rfl
  | setNet i bn => simp only [Apart.step]; split <;> rfl
  | newData d => rfl
  | setData j d => simp only [Apart.step]; split <;> rfl
  | getData j => simp only [Apart.step]; split <;> rfl
  | create i =>
    simp only [Apart.step]
    split
    · rfl
    · split
      · rfl
      · exact List.getElem?_append_left hk
  | query k' j =>
    simp only [Apart.step]
    split
    · split <;> rfl
    · rfl
  | doLabel k' v b s =>
    simp only [Apart.step]
    split
    · rfl
    · exact hset hc
  | doDict k' v j =>
    simp only [Apart.step]
    split
    · exact hset hc
    · rfl
  | reset k' v =>
    simp only [Apart.step]
    split
    · rfl
    · exact hset hc

omit [IsStrictOrderedRing K] in
theorem Apart.step_data (nd : Nondet V) (okName : V → Bool) (a : Apart V S K) {c : Call V S K} {j : ℕ}
    (hj : j < a.datas.length) (hc : c.writes j = false) :
    (a.step nd okName c).1.datas[j]? = a.datas[j]? := by
  cases c with
  | newNet bn => rfl
  | setNet i bn => simp only [Apart.step]; split <;> rfl
  | newData d => exact List.getElem?_append_left hj
  | setData j' d =>
    simp only [Apart.step]
    split
    · exact List.getElem?_set_ne (by simpa [Call.writes] using hc)
    · rfl
  | getData j => simp only [Apart.step]; split <;> rfl
  | create i =>
    simp only [Apart.step]
    split
    · rfl
    · split <;> rfl
  | query k' j =>
    simp only [Apart.step]
    split
    · split
      · rfl
      · exact List.getElem?_append_left hj
    · rfl
  | doLabel k' v b s => simp only [Apart.step]; split <;> rfl
  | doDict k' v j => simp only [Apart.step]; split <;> rfl
  | reset k' v => simp only [Apart.step]; split <;> rfl

omit [IsStrictOrderedRing K] in
theorem Apart.step_nets (nd : Nondet V) (okName : V → Bool) (a : Apart V S K) (c : Call V S K) :
    (a.step nd okName c).1.nets = match c with
      | .newNet bn => a.nets ++ [bn]
      | .setNet i bn => a.nets.set i bn
      | _ => a.nets := by
  cases c with
  | newNet bn => rfl
  | setNet i bn =>
    simp only [Apart.step]
    split
    · rfl
    · next h => exact (List.set_eq_of_length_le (Nat.not_lt.1 h)).symm
  | newData d => rfl
  | setData j d => simp only [Apart.step]; split <;> rfl
  | getData j => simp only [Apart.step]; split <;> rfl
  | create i =>
    simp only [Apart.step]
    split
    · rfl
    · split <;> rfl
  | query k j =>
    simp only [Apart.step]
    split
    · split <;> rfl
    · rfl
  | doLabel k v b s => simp only [Apart.step]; split <;> rfl
  | doDict k v j => simp only [Apart.step]; split <;> rfl
  | reset k v => simp only [Apart.step]; split <;> rfl

/-- **Only interventions and resets on an engine change its answers.**  After any history, a further call
that is not an intervention on or a reset of engine `k` leaves every answer of `k` as it was: fitting or overwriting the network
it was created from, changing a dictionary passed to or returned by it, queries, and interventions on other engines of the same
network. -/
theorem other_calls_keep_answers {nd : Nondet V} (hnd : nd.Legal) {okName : V → Bool} {cs : List (Call V S K)}
    {c : Call V S K} (hcs : Apart.HistOk nd okName .empty cs)
    (hc : (Apart.run nd okName .empty cs).1.CallOk c) {k : ℕ}
    (hk : k < (World.run nd okName .empty cs).1.engines.length) (hne : c.changes k = false) (ev : List (V × S)) :
    ((World.run nd okName .empty cs).1.step nd okName c).1.ask nd k ev =
      (World.run nd okName .empty cs).1.ask nd k ev := by
  obtain ⟨_, own, h⟩ := Holds.empty.run hnd hcs
  obtain ⟨_, own', h'⟩ := h.step hnd (okName := okName) hc
  rw [h'.ask_eq, h.ask_eq, Apart.step_engine nd okName _ (h.engs.1 ▸ hk) hne]

/-- **Dictionaries change only when the caller changes them.**  After any history, a further call other than
an assignment by the caller to dictionary `j` leaves the contents of `j` as they were: engines do not change the
observations or distributions passed to them, and answers given earlier do not change when the engine is used again. -/
theorem other_calls_keep_data {nd : Nondet V} (hnd : nd.Legal) {okName : V → Bool} {cs : List (Call V S K)}
    {c : Call V S K} (hcs : Apart.HistOk nd okName .empty cs)
    (hc : (Apart.run nd okName .empty cs).1.CallOk c) {j : ℕ}
    (hj : j < (World.run nd okName .empty cs).1.handles.length) (hne : c.writes j = false) :
    ((World.run nd okName .empty cs).1.step nd okName c).1.data j = (World.run nd okName .empty cs).1.data j := by
  obtain ⟨_, own, h⟩ := Holds.empty.run hnd hcs
  obtain ⟨_, own', h'⟩ := h.step hnd (okName := okName) hc
  rw [h'.data_eq, h.data_eq, Apart.step_data nd okName _ (h.datas.1 ▸ hj) hne]

/-- Engines never change a network. -/
theorem other_calls_keep_nets {nd : Nondet V} (hnd : nd.Legal) {okName : V → Bool} {cs : List (Call V S K)}
    {c : Call V S K} (hcs : Apart.HistOk nd okName .empty cs)
    (hc : (Apart.run nd okName .empty cs).1.CallOk c) {i : ℕ}
    (hi : i < (World.run nd okName .empty cs).1.nets.length) (hne : ∀ bn, c ≠ .setNet i bn) :
    ((World.run nd okName .empty cs).1.step nd okName c).1.net i = (World.run nd okName .empty cs).1.net i := by
  obtain ⟨_, own, h⟩ := Holds.empty.run hnd hcs
  obtain ⟨_, own', h'⟩ := h.step hnd (okName := okName) hc
  rw [h'.net_eq, h.net_eq, Apart.step_nets]
  have hi' : i < (Apart.run nd okName .empty cs).1.nets.length := h.nets.1 ▸ hi
  cases c with
  | newNet bn => exact List.getElem?_append_left hi'
  | setNet i' bn =>
    refine List.getElem?_set_ne ?_
    rintro rfl
    exact hne bn rfl
  | _ => rfl

/-- The interventions on and resets of engine `k` in a history, with the contents of the dictionaries passed at the time of the call. -/
def World.opsOn (nd : Nondet V) (okName : V → Bool) (k : ℕ) : World V S K → List (Call V S K) → List (Op V S K)
  | _, [] => []
  | w, c :: cs =>
    (match c with
      | .doLabel k' v isInt s => if k' = k then [.doIt v (.label isInt s)] else []
      | .doDict k' v j =>
        if k' = k then
          match w.data j with
          | some (.dist d) => [.doIt v (.dist (.ofList d))]
          | _ => []
        else []
      | .reset k' v => if k' = k then [.reset v] else []
      | _ => []) ++ World.opsOn nd okName k (w.step nd okName c).1 cs

theorem Holds.run_engine {nd : Nondet V} (hnd : nd.Legal) {okName : V → Bool} {own : Ref → Owner} {w : World V S K}
    {a : Apart V S K} (hw : Holds own w a) {cs : List (Call V S K)} (hc : Apart.HistOk nd okName a cs)
    {k : ℕ} {E : Engine V S K} (hk : a.engines[k]? = some E) :
    (a.run nd okName cs).1.engines[k]? = some (E.run nd (w.opsOn nd okName k cs)) := by
  induction cs generalizing own w a E with
  | nil => exact hk
  | cons c cs ih =>
    obtain ⟨_, own', h2⟩ := hw.step hnd (okName := okName) hc.1
    have hlt := (List.getElem?_eq_some_iff.1 hk).1
    simp only [Apart.run, World.opsOn]
    have hkeep : c.changes k = false → (a.step nd okName c).1.engines[k]? = some E :=
      fun h => (Apart.step_engine nd okName a hlt h).trans hk
    have hset : ∀ E', (a.engines.set k E')[k]? = some E' := fun E' => List.getElem?_set_self hlt
    cases c with
    | doLabel k' v b s =>
      dsimp only
      by_cases hkk : k' = k
      · subst hkk
        rw [if_pos rfl]
        refine ih (E := (E.doIntervention v (.label b s)).1) h2 hc.2 ?_
        simp only [Apart.step, hk]
        exact hset _
      · rw [if_neg hkk]
        exact ih h2 hc.2 (hkeep (by simpa [Call.changes] using hkk))
    | doDict k' v j =>
      dsimp only
      by_cases hkk : k' = k
      · subst hkk
        rw [if_pos rfl, hw.data_eq]
        cases hj : a.datas[j]? with
        | none =>
          refine ih h2 hc.2 ?_
          simp only [Apart.step, hk, hj]
        | some d =>
          cases d with
          | obs l =>
            refine ih h2 hc.2 ?_
            simp only [Apart.step, hk, hj]
          | dist l =>
            refine ih (E := (E.doIntervention v (.dist (.ofList l))).1) h2 hc.2 ?_
            simp only [Apart.step, hk, hj]
            exact hset _
      · rw [if_neg hkk]
        exact ih h2 hc.2 (hkeep (by simpa [Call.changes] using hkk))
    | reset k' v =>
      dsimp only
      by_cases hkk : k' = k
      · subst hkk
        rw [if_pos rfl]
        refine ih (E := (E.resetDo v).1) h2 hc.2 ?_
        simp only [Apart.step, hk]
        exact hset _
      · rw [if_neg hkk]
        exact ih h2 hc.2 (hkeep (by simpa [Call.changes] using hkk))
    | newNet bn => exact ih h2 hc.2 (hkeep rfl)
    | setNet i bn => exact ih h2 hc.2 (hkeep rfl)
    | newData d => exact ih h2 hc.2 (hkeep rfl)
    | setData j d => exact ih h2 hc.2 (hkeep rfl)
    | getData j => exact ih h2 hc.2 (hkeep rfl)
    | create i => exact ih h2 hc.2 (hkeep rfl)
    | query k' j => exact ih h2 hc.2 (hkeep rfl)

omit [IsStrictOrderedRing K] in
theorem Apart.step_length (nd : Nondet V) (okName : V → Bool) (a : Apart V S K) (c : Call V S K) :
    (a.step nd okName c).1.engines.length = a.engines.length ∨
    ∃ i bn E, c = .create i ∧ a.nets[i]? = some bn ∧ Engine.create okName bn = .ok E ∧
      (a.step nd okName c).1.engines = a.engines ++ [E] := by
  cases c with
  | newNet bn => exact .inl rfl
  | setNet i bn => left; simp only [Apart.step]; split <;> rfl
  | newData d => exact .inl rfl
  | setData j d => left; simp only [Apart.step]; split <;> rfl
  | getData j => left; simp only [Apart.step]; split <;> rfl
  | create i =>
    simp only [Apart.step]
    cases hi : a.nets[i]? with
    | none => exact .inl rfl
    | some bn =>
      cases hE : Engine.create okName bn with
      | error err => left; simp only [hE]
      | ok E => right; exact ⟨i, bn, E, rfl, hi, hE, by simp only [hE]⟩
  | query k j =>
    left
    simp only [Apart.step]
    split
    · split <;> rfl
    · rfl
  | doLabel k v b s => left; simp only [Apart.step]; split <;> simp
  | doDict k v j => left; simp only [Apart.step]; split <;> simp
  | reset k v => left; simp only [Apart.step]; split <;> simp

omit [IsStrictOrderedRing K] in
theorem Apart.run_append (nd : Nondet V) (okName : V → Bool) (a : Apart V S K) (cs cs' : List (Call V S K)) :
    (a.run nd okName (cs ++ cs')).1 = ((a.run nd okName cs).1.run nd okName cs').1 := by
  induction cs generalizing a with
  | nil => rfl
  | cons c cs ih => simp only [List.cons_append, Apart.run]; exact ih _

omit [IsStrictOrderedRing K] in
theorem World.run_append (nd : Nondet V) (okName : V → Bool) (w : World V S K) (cs cs' : List (Call V S K)) :
    (w.run nd okName (cs ++ cs')).1 = ((w.run nd okName cs).1.run nd okName cs').1 := by
  induction cs generalizing w with
  | nil => rfl
  | cons c cs ih => simp only [List.cons_append, World.run]; exact ih _

omit [IsStrictOrderedRing K] in
theorem Apart.histOk_append {nd : Nondet V} {okName : V → Bool} {a : Apart V S K} {cs cs' : List (Call V S K)}
    (h : Apart.HistOk nd okName a (cs ++ cs')) :
    Apart.HistOk nd okName a cs ∧ Apart.HistOk nd okName (a.run nd okName cs).1 cs' := by
  induction cs generalizing a with
  | nil => exact ⟨trivial, h⟩
  | cons c cs ih =>
    obtain ⟨h1, h2⟩ := h
    obtain ⟨h3, h4⟩ := ih h2
    exact ⟨⟨h1, h3⟩, h4⟩

omit [IsStrictOrderedRing K] in
theorem Apart.created (nd : Nondet V) (okName : V → Bool) (a : Apart V S K) (cs : List (Call V S K)) {k : ℕ}
    (h1 : a.engines.length ≤ k) (h2 : k < (a.run nd okName cs).1.engines.length) :
    ∃ pre i post bn E, cs = pre ++ .create i :: post ∧ (a.run nd okName pre).1.nets[i]? = some bn ∧
      Engine.create okName bn = .ok E ∧ (a.run nd okName pre).1.engines.length = k ∧
      (a.run nd okName (pre ++ [.create i])).1.engines[k]? = some E := by
  induction cs generalizing a with
  | nil => exact absurd h2 (Nat.not_lt.2 h1)
  | cons c cs ih =>
    have key : (a.step nd okName c).1.engines.length ≤ k → _ := fun h => ih (a.step nd okName c).1 h h2
    rcases Apart.step_length nd okName a c with hl | ⟨i, bn, E, rfl, k1, k2, k3⟩
    · obtain ⟨pre, i, post, bn, E, rfl, g1, g2, g3, g4⟩ := key (hl ▸ h1)
      exact ⟨c :: pre, i, post, bn, E, rfl, g1, g2, g3, g4⟩
    · by_cases hk : k = a.engines.length
      · subst hk
        refine ⟨[], i, cs, bn, E, rfl, k1, k2, rfl, ?_⟩
        simp only [List.nil_append, Apart.run, k3]
        exact List.getElem?_concat_length
      · have : (a.step nd okName (.create i)).1.engines.length ≤ k := by
          rw [k3, List.length_append]
          exact Nat.lt_of_le_of_ne h1 (Ne.symm hk)
        obtain ⟨pre, i', post, bn', E', rfl, g1, g2, g3, g4⟩ := key this
        exact ⟨.create i :: pre, i', post, bn', E', rfl, g1, g2, g3, g4⟩

/-- **The answers of an engine are determined by the network as it was when the engine was created and by the
interventions on it.**  Every engine was created by some call `InferenceEngine(bn)` of the history; what it
answers at the end is what an engine newly created from the contents of `bn` at the time of that call would answer
after the interventions on this engine and its resets alone, with the contents the dictionaries had when they were passed. -/
theorem engine_answers_from_own_history {nd : Nondet V} (hnd : nd.Legal) {okName : V → Bool} {cs : List (Call V S K)}
    (hc : Apart.HistOk nd okName .empty cs) {k : ℕ} (hk : k < (World.run nd okName .empty cs).1.engines.length) :
    ∃ pre i post bn E, cs = pre ++ .create i :: post ∧
      (World.run nd okName .empty pre).1.engines.length = k ∧
      (World.run nd okName .empty pre).1.net i = some bn ∧ GoodNet bn ∧ Engine.create okName bn = .ok E ∧
      ∀ ev, (World.run nd okName .empty cs).1.ask nd k ev = some ((E.run nd
        ((World.run nd okName .empty (pre ++ [.create i])).1.opsOn nd okName k post)).query nd ev) := by
  obtain ⟨_, own, h⟩ := Holds.empty.run hnd hc
  obtain ⟨pre, i, post, bn, E, rfl, h1, h2, h3, h4⟩ := Apart.created nd okName .empty cs (Nat.zero_le k) (h.engs.1 ▸ hk)
  obtain ⟨c1, c2⟩ := Apart.histOk_append hc
  obtain ⟨_, own₁, k1⟩ := Holds.empty.run hnd c1
  have heq : pre ++ .create i :: post = (pre ++ [.create i]) ++ post := by simp
  rw [heq] at hc
  obtain ⟨c3, c4⟩ := Apart.histOk_append hc
  obtain ⟨_, own₂, k2⟩ := Holds.empty.run hnd c3
  refine ⟨pre, i, post, bn, E, rfl, k1.engs.1.trans h3, (k1.net_eq i).trans h1, c2.1 bn h1, h2, fun ev => ?_⟩
  rw [h.ask_eq, heq, Apart.run_append, k2.run_engine hnd c4 h4]
  rfl

omit [LinearOrder V] [DecidableEq S] [Field K] [LinearOrder K] [IsStrictOrderedRing K] in
theorem allocEach_old {α β : Type} (o : β → Obj V S K) (h : Heap V S K) (l : List (α × β)) :
    ∃ t, (allocEach (fun h b => alloc h (o b)) h l).1 = h ++ t := by
  induction l generalizing h with
  | nil => exact ⟨[], by simp [allocEach]⟩
  | cons q l ih =>
    obtain ⟨t, ht⟩ := ih (alloc h (o q.2)).1
    refine ⟨o q.2 :: t, ?_⟩
    simp only [allocEach]
    rw [ht]
    simp [alloc]

omit [IsStrictOrderedRing K] in
/-- **Queries leave no trace.**  A query, whatever its outcome, changes no object that existed before, and no engine and no
network: it only creates the dictionaries of its answer. -/
theorem query_leaves_no_trace (nd : Nondet V) (okName : V → Bool) (w : World V S K) (k j : ℕ) :
    (w.step nd okName (.query k j)).1.engines = w.engines ∧ (w.step nd okName (.query k j)).1.nets = w.nets ∧
    (∀ r, r < w.heap.length → (w.step nd okName (.query k j)).1.heap[r]? = w.heap[r]?) ∧
    w.handles <+: (w.step nd okName (.query k j)).1.handles := by
  simp only [World.step]
  split
  · split
    · exact ⟨rfl, rfl, fun _ _ => rfl, List.prefix_rfl⟩
    · next out _ =>
      refine ⟨rfl, rfl, fun r hr => ?_, List.prefix_append _ _⟩
      obtain ⟨t, ht⟩ := allocEach_old (fun l => (.data (.dist l) : Obj V S K)) w.heap out
      simp only [ht]
      exact getElem?_append_old hr
  · exact ⟨rfl, rfl, fun _ _ => rfl, List.prefix_rfl⟩

end

/-! ### Example -/

/-- Two engines of one network; an intervention on the first with a dictionary the caller then changes; the network is
replaced; a reset. -/
def exCalls : List (Call ℕ Bool ℚ) :=
  [.newNet exChain, .create 0, .create 0, .newData (.obs [(2, true)]), .newData (.dist [(true, 1/4), (false, 3/4)]),
   .query 0 0, .doDict 0 0 1, .setData 1 (.dist [(true, 5)]), .setNet 0 exBn, .create 0, .setData 2 (.dist []),
   .query 0 0, .getData 2, .getData 5, .query 1 0, .getData 8, .query 2 0, .getData 11, .doLabel 0 1 false true,
   .reset 0 0, .query 0 0, .getData 14, .query 0 1, .getData 17]

theorem exCalls_ok : Apart.HistOk exNd (fun _ => true) .empty exCalls := by
  have h1 : GoodNet exChain := ⟨exChain_fitted, by decide⟩
  have h2 : GoodNet exBn := ⟨exBn_fitted, by decide⟩
  have e : ∀ {bn bn' : List (ℕ × Frame ℕ Bool ℚ)}, GoodNet bn → some bn = some bn' → GoodNet bn' := by
    intro bn bn' h heq
    cases heq
    exact h
  simp only [exCalls, Apart.HistOk, Apart.CallOk, Apart.step_nets, Apart.empty, List.nil_append, List.set_cons_zero,
    List.getElem?_cons_zero, and_true, true_and, Data.Valid]
  exact ⟨fun _ => e h1, fun _ => e h1, by decide, by decide, by decide, fun _ => e h2, by decide⟩

/-- The hypotheses of the theorems above are met by a history with queries, and the second engine exists. -/
example : Apart.HistOk exNd (fun _ => true) .empty exCalls ∧
    1 < (World.run exNd (fun _ => true) .empty (exCalls.take 5)).1.engines.length :=
  ⟨exCalls_ok, by decide +kernel⟩

/-- What the caller sees in such a history: an intervention with a dictionary, a change of the
dictionary, another intervention with it, a change of the network, a label that is not an integer, resets. -/
example : (World.run exNd (fun _ => true) .empty
    [.newNet exChain, .create 0, .create 0, .newData (.dist [(true, 1/4), (false, 3/4)]), .doDict 0 0 0, .getData 0,
      .setData 0 (.dist [(true, 5)]), .doDict 1 0 0, .setNet 0 exBn, .create 0, .doLabel 0 1 false true,
      .doLabel 0 2 true true, .reset 0 0, .reset 0 7, .getData 0, .getData 1]).2 =
    [.done, .done, .done, .done, .done, .data (.dist [(true, 1/4), (false, 3/4)]), .done, .raised .valueError, .done, .done,
      .raised .attributeError, .raised .valueError, .done, .raised .keyError, .data (.dist [(true, 5)]), .nothing] := by
  decide +kernel

end Verif.BBN
