import Verif.BBN.EngineHeapSpec

/-!
# Nested dictionaries on the heap
-/

namespace Verif.BBN

section
variable {V S K : Type}

/-! ### Reading -/

theorem readEach_forall₂ {α β : Type} {f : Ref → Option β} {l : List (α × Ref)} {bs : List (α × β)} :
    readEach f l = some bs ↔ List.Forall₂ (fun q b => q.1 = b.1 ∧ f q.2 = some b.2) l bs := by
  induction l generalizing bs with
  | nil =>
    simp only [readEach, Option.some.injEq]
    constructor
    · rintro rfl; exact .nil
    · intro h; cases h; rfl
  | cons q l ih =>
    simp only [readEach]
    constructor
    · intro h
      split at h
      · rename_i b bs' hb hbs
        cases h
        exact .cons ⟨rfl, hb⟩ (ih.1 hbs)
      · cases h
    · intro h
      cases h with
      | @cons _ b _ bs' hab hl =>
        rw [hab.2, ih.2 hl]
        simp only [hab.1]

theorem readEach_keys {α β : Type} {f : Ref → Option β} {l : List (α × Ref)} {bs : List (α × β)}
    (h : readEach f l = some bs) : l.map Prod.fst = bs.map Prod.fst := by
  have := readEach_forall₂.1 h
  clear h
  induction this with
  | nil => rfl
  | cons hab _ ih => simp [hab.1, ih]

theorem readEach_congr {α β : Type} {f g : Ref → Option β} {l : List (α × Ref)} (h : ∀ q ∈ l, f q.2 = g q.2) :
    readEach f l = readEach g l := by
  induction l with
  | nil => rfl
  | cons q l ih =>
    simp only [readEach]
    rw [h q List.mem_cons_self, ih fun q hq => h q (List.mem_cons_of_mem _ hq)]

theorem readEach_lookup {α β : Type} [BEq α] {f : Ref → Option β} {l : List (α × Ref)} {bs : List (α × β)}
    (h : readEach f l = some bs) (a : α) :
    (l.lookup a = none ∧ bs.lookup a = none) ∨ ∃ r b, l.lookup a = some r ∧ bs.lookup a = some b ∧ f r = some b := by
  have := readEach_forall₂.1 h
  clear h
  induction this with
  | nil => exact Or.inl ⟨rfl, rfl⟩
  | @cons q b l bs hab _ ih =>
    obtain ⟨x, r⟩ := q
    obtain ⟨y, c⟩ := b
    obtain ⟨h1, h2⟩ := hab
    simp only at h1 h2
    subst h1
    simp only [List.lookup_cons]
    cases a == x
    · exact ih
    · exact Or.inr ⟨r, c, rfl, rfl, h2⟩

theorem readEach_mem {α β : Type} {f : Ref → Option β} {l : List (α × Ref)} {bs : List (α × β)}
    (h : readEach f l = some bs) {q : α × Ref} (hq : q ∈ l) : ∃ b, f q.2 = some b ∧ (q.1, b) ∈ bs := by
  have := readEach_forall₂.1 h
  clear h
  induction this with
  | nil => cases hq
  | @cons q' b l bs hab _ ih =>
    rcases List.mem_cons.1 hq with rfl | hq
    · exact ⟨b.2, hab.2, by rw [hab.1]; exact List.mem_cons_self⟩
    · obtain ⟨b, h1, h2⟩ := ih hq
      exact ⟨b, h1, List.mem_cons_of_mem _ h2⟩

/-- A nested dict of states at `r`; all addresses satisfy `P`. -/
def StatesAt (P : Ref → Prop) (h : Heap V S K) (r : Ref) (st : List (S × List (Key V S × K))) : Prop :=
  P r ∧ ∃ l, getStates h r = some l ∧ (∀ q ∈ l, P q.2) ∧ readEach (getConds h) l = some st

/-- A nested dict of nodes at `r`; all addresses but `r` satisfy `P`. -/
def CpdsAt (P : Ref → Prop) (h : Heap V S K) (r : Ref) (N : Nested V S K) : Prop :=
  ∃ l, getCpds h r = some l ∧ List.Forall₂ (fun q n => q.1 = n.1 ∧ StatesAt P h q.2 n.2) l N

/-- A dict of domains at `r`; all addresses satisfy `P`. -/
def DomainsAt (P : Ref → Prop) (h : Heap V S K) (r : Ref) (d : List (V × List S)) : Prop :=
  P r ∧ ∃ l, getDomains h r = some l ∧ (∀ q ∈ l, P q.2) ∧ readEach (getLabels h) l = some d

theorem StatesAt.read {P : Ref → Prop} {h : Heap V S K} {r : Ref} {st : List (S × List (Key V S × K))}
    (hs : StatesAt P h r st) : readStates h r = some st := by
  obtain ⟨_, l, h1, _, h2⟩ := hs
  simp only [readStates, h1, Option.bind_some, h2]

theorem CpdsAt.read {P : Ref → Prop} {h : Heap V S K} {r : Ref} {N : Nested V S K} (hc : CpdsAt P h r N) :
    readCpds h r = some N := by
  obtain ⟨l, h1, h2⟩ := hc
  simp only [readCpds, h1, Option.bind_some]
  exact readEach_forall₂.2 (h2.imp fun _ _ hab => ⟨hab.1, hab.2.read⟩)

theorem DomainsAt.read {P : Ref → Prop} {h : Heap V S K} {r : Ref} {d : List (V × List S)}
    (hd : DomainsAt P h r d) : readDomains h r = some d := by
  obtain ⟨_, l, h1, _, h2⟩ := hd
  simp only [readDomains, h1, Option.bind_some, h2]

/-- Reading depends on the addresses read only. -/
theorem StatesAt.congr {P Q : Ref → Prop} {h h' : Heap V S K} {r : Ref} {st : List (S × List (Key V S × K))}
    (hs : StatesAt P h r st) (hag : ∀ r, P r → h'[r]? = h[r]?) (hPQ : ∀ r, P r → Q r) : StatesAt Q h' r st := by
  obtain ⟨h0, l, h1, h2, h3⟩ := hs
  refine ⟨hPQ _ h0, l, ?_, fun q hq => hPQ _ (h2 q hq), ?_⟩
  · unfold getStates at h1 ⊢; rw [hag r h0]; exact h1
  · rw [← h3]
    exact readEach_congr fun q hq => by unfold getConds; rw [hag _ (h2 q hq)]

theorem CpdsAt.congr {P Q : Ref → Prop} {h h' : Heap V S K} {r : Ref} {N : Nested V S K} (hc : CpdsAt P h r N)
    (hr : h'[r]? = h[r]?) (hag : ∀ r, P r → h'[r]? = h[r]?) (hPQ : ∀ r, P r → Q r) : CpdsAt Q h' r N := by
  obtain ⟨l, h1, h2⟩ := hc
  refine ⟨l, ?_, h2.imp fun _ _ hab => ⟨hab.1, hab.2.congr hag hPQ⟩⟩
  unfold getCpds at h1 ⊢; rw [hr]; exact h1

theorem DomainsAt.congr {P Q : Ref → Prop} {h h' : Heap V S K} {r : Ref} {d : List (V × List S)}
    (hs : DomainsAt P h r d) (hag : ∀ r, P r → h'[r]? = h[r]?) (hPQ : ∀ r, P r → Q r) : DomainsAt Q h' r d := by
  obtain ⟨h0, l, h1, h2, h3⟩ := hs
  refine ⟨hPQ _ h0, l, ?_, fun q hq => hPQ _ (h2 q hq), ?_⟩
  · unfold getDomains at h1 ⊢; rw [hag r h0]; exact h1
  · rw [← h3]
    exact readEach_congr fun q hq => by unfold getLabels; rw [hag _ (h2 q hq)]

theorem lt_append {h t : Heap V S K} {r : Ref} (hr : r < h.length) : r < (h ++ t).length := by
  rw [List.length_append]; exact Nat.lt_of_lt_of_le hr (Nat.le_add_right _ _)

theorem getElem?_append_old {h t : Heap V S K} {r : Ref} (hr : r < h.length) : (h ++ t)[r]? = h[r]? :=
  List.getElem?_append_left hr

theorem getCpds_lt {h : Heap V S K} {r : Ref} {l : List (V × Ref)} (hg : getCpds h r = some l) : r < h.length := by
  unfold getCpds at hg
  by_contra hc
  rw [List.getElem?_eq_none (Nat.le_of_not_lt hc)] at hg
  cases hg

/-! ### Creating -/

theorem allocEach_spec {α β : Type} {Good : Heap V S K → Ref → β → Prop} {lo : ℕ}
    {f : Heap V S K → β → Heap V S K × Ref}
    (hmono : ∀ h t r b, lo ≤ h.length → Good h r b → Good (h ++ t) r b)
    (hf : ∀ h b, lo ≤ h.length → ∃ t, (f h b).1 = h ++ t ∧ Good (f h b).1 (f h b).2 b)
    (l : List (α × β)) (h : Heap V S K) (hlo : lo ≤ h.length) :
    ∃ t, (allocEach f h l).1 = h ++ t ∧
      List.Forall₂ (fun q b => q.1 = b.1 ∧ Good (allocEach f h l).1 q.2 b.2) (allocEach f h l).2 l := by
  induction l generalizing h with
  | nil => exact ⟨[], by simp [allocEach], by simp [allocEach]⟩
  | cons q l ih =>
    obtain ⟨t₁, h1, h2⟩ := hf h q.2 hlo
    have hlo₁ : lo ≤ (f h q.2).1.length := by rw [h1, List.length_append]; omega
    obtain ⟨t₂, h3, h4⟩ := ih (f h q.2).1 hlo₁
    have e1 : (allocEach f h (q :: l)).1 = (allocEach f (f h q.2).1 l).1 := rfl
    have e2 : (allocEach f h (q :: l)).2 = (q.1, (f h q.2).2) :: (allocEach f (f h q.2).1 l).2 := rfl
    refine ⟨t₁ ++ t₂, by rw [e1, h3, h1, List.append_assoc], ?_⟩
    rw [e1, e2]
    refine .cons ⟨rfl, ?_⟩ h4
    rw [h3]
    exact hmono _ _ _ _ hlo₁ h2

theorem newStates_spec (lo : ℕ) (h : Heap V S K) (st : List (S × List (Key V S × K))) (hlo : lo ≤ h.length) :
    ∃ t, (newStates h st).1 = h ++ t ∧
      StatesAt (fun r => lo ≤ r ∧ r < (newStates h st).1.length) (newStates h st).1 (newStates h st).2 st := by
  obtain ⟨t, h1, h2⟩ := allocEach_spec (Good := fun (h : Heap V S K) r (c : List (Key V S × K)) =>
      (lo ≤ r ∧ r < h.length) ∧ getConds h r = some c) (lo := lo)
    (f := fun h c => alloc h (.conds c)) (by
      intro h t r b _ ⟨⟨h1, h2⟩, h3⟩
      refine ⟨⟨h1, lt_append h2⟩, ?_⟩
      unfold getConds at h3 ⊢
      rw [getElem?_append_old h2]; exact h3) (by
      intro h b hl
      refine ⟨[.conds b], rfl, ⟨hl, by simp [alloc]⟩, ?_⟩
      simp [alloc, getConds]) st h hlo
  set h₁ := (allocEach (fun h c => alloc h (Obj.conds c)) h st).1 with hh₁
  set l := (allocEach (fun h c => alloc h (Obj.conds c)) h st).2 with hl
  have e1 : (newStates h st).1 = h₁ ++ [.states l] := rfl
  have e2 : (newStates h st).2 = h₁.length := rfl
  have hle : lo ≤ h₁.length := by rw [h1, List.length_append]; omega
  refine ⟨t ++ [.states l], by rw [e1, h1, List.append_assoc], ?_⟩
  rw [e1, e2]
  refine ⟨⟨hle, by simp⟩, l, by simp [getStates], ?_, ?_⟩
  · intro q hq
    have hg := (List.forall₂_iff_get.1 h2).2
    obtain ⟨i, hi, rfl⟩ := List.mem_iff_getElem.1 hq
    have := (hg i hi (by rw [← h2.length_eq]; exact hi)).2.1
    exact ⟨this.1, lt_append this.2⟩
  · refine readEach_forall₂.2 (h2.imp fun q b hab => ⟨hab.1, ?_⟩)
    have := hab.2.2
    unfold getConds at this ⊢
    rw [getElem?_append_old hab.2.1.2]; exact this

theorem StatesAt.extend {lo : ℕ} {h t : Heap V S K} {r : Ref} {st : List (S × List (Key V S × K))}
    (hs : StatesAt (fun r => lo ≤ r ∧ r < h.length) h r st) :
    StatesAt (fun r => lo ≤ r ∧ r < (h ++ t).length) (h ++ t) r st :=
  hs.congr (fun _ hr => getElem?_append_old hr.2) fun _ hr => ⟨hr.1, lt_append hr.2⟩

theorem newCpds_spec (h : Heap V S K) (N : Nested V S K) :
    ∃ t, (newCpds h N).1 = h ++ t ∧ (newCpds h N).1.length = (newCpds h N).2 + 1 ∧ h.length ≤ (newCpds h N).2 ∧
      CpdsAt (fun r => h.length ≤ r ∧ r < (newCpds h N).2) (newCpds h N).1 (newCpds h N).2 N := by
  obtain ⟨t, h1, h2⟩ := allocEach_spec (Good := fun (h' : Heap V S K) r st =>
      StatesAt (fun r => h.length ≤ r ∧ r < h'.length) h' r st) (lo := h.length) (f := newStates)
    (fun _ _ _ _ _ hs => hs.extend) (fun h' b hl => newStates_spec h.length h' b hl) N h le_rfl
  set h₁ := (allocEach newStates h N).1 with hh₁
  set l := (allocEach newStates h N).2 with hl
  have e1 : (newCpds h N).1 = h₁ ++ [.cpds l] := rfl
  have e2 : (newCpds h N).2 = h₁.length := rfl
  have hle : h.length ≤ h₁.length := by rw [h1, List.length_append]; omega
  refine ⟨t ++ [.cpds l], by rw [e1, h1, List.append_assoc], by rw [e1, e2]; simp, by rw [e2]; exact hle, ?_⟩
  rw [e1, e2]
  refine ⟨l, by simp [getCpds], h2.imp fun q n hab => ⟨hab.1, ?_⟩⟩
  exact hab.2.congr (fun _ hr => getElem?_append_old hr.2) fun _ hr => hr

theorem newDomains_spec (h : Heap V S K) (bn : List (V × Frame V S K)) :
    ∃ t, (newDomains h bn).1 = h ++ t ∧
      DomainsAt (fun r => h.length ≤ r ∧ r < (newDomains h bn).1.length) (newDomains h bn).1 (newDomains h bn).2
        (bn.map fun q => (q.1, q.2.index)) := by
  obtain ⟨t, h1, h2⟩ := allocEach_spec (Good := fun (h' : Heap V S K) r (f : Frame V S K) =>
      (h.length ≤ r ∧ r < h'.length) ∧ getLabels h' r = some f.index) (lo := h.length)
    (f := fun h (f : Frame V S K) => alloc h (.labels f.index)) (by
      intro h' t r b _ ⟨⟨h1, h2⟩, h3⟩
      refine ⟨⟨h1, lt_append h2⟩, ?_⟩
      unfold getLabels at h3 ⊢
      rw [getElem?_append_old h2]; exact h3) (by
      intro h b hl
      refine ⟨[.labels b.index], rfl, ⟨hl, by simp [alloc]⟩, ?_⟩
      simp [alloc, getLabels]) bn h le_rfl
  set h₁ := (allocEach (fun h (f : Frame V S K) => alloc h (Obj.labels f.index)) h bn).1 with hh₁
  set l := (allocEach (fun h (f : Frame V S K) => alloc h (Obj.labels f.index)) h bn).2 with hl
  have e1 : (newDomains h bn).1 = h₁ ++ [.domains l] := rfl
  have e2 : (newDomains h bn).2 = h₁.length := rfl
  have hle : h.length ≤ h₁.length := by rw [h1, List.length_append]; omega
  refine ⟨t ++ [.domains l], by rw [e1, h1, List.append_assoc], ?_⟩
  rw [e1, e2]
  refine ⟨⟨hle, by simp⟩, l, by simp [getDomains], ?_, ?_⟩
  · intro q hq
    have hg := (List.forall₂_iff_get.1 h2).2
    obtain ⟨i, hi, rfl⟩ := List.mem_iff_getElem.1 hq
    have := (hg i hi (by rw [← h2.length_eq]; exact hi)).2.1
    exact ⟨this.1, lt_append this.2⟩
  · rw [readEach_forall₂, List.forall₂_map_right_iff]
    refine h2.imp fun q b hab => ⟨hab.1, ?_⟩
    have := hab.2.2
    unfold getLabels at this ⊢
    rw [getElem?_append_old hab.2.1.2]; exact this

end

end Verif.BBN
