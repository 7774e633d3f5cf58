import Verif.BBN.Table
import Verif.BBN.TreeSum

/-!
# `collect_evidence` and `distribute_evidence` calibrate a join tree
-/

namespace Verif.BBN

open Function

section
variable {V S K : Type} [LinearOrder V] [DecidableEq S]
variable [Add K] [Mul K] [Div K] [Zero K] [One K] [DecidableEq K]

/-- The loop over neighbours in `collect_evidence`. -/
def collectBody (jt : JT V) (ord : ℕ → List ℕ) (fuel s : ℕ) (st : MState V S K) (nb : ℕ) :
    Except Err (MState V S K) :=
  if nb ∈ st.2 then .ok st else collect jt ord fuel nb (some s) st

theorem collect_succ (jt : JT V) (ord : ℕ → List ℕ) (fuel s : ℕ) (r : Option ℕ)
    (st : MState V S K) :
    collect jt ord (fuel + 1) s r st = (do
      let st ← (ord s).foldlM (collectBody jt ord fuel s) (st.1, s :: st.2)
      match r with
      | none => return st
      | some r => do
        let p ← passMessage jt st.1 s r
        return (p, st.2)) := by
  rw [collect]; rfl

/-- First loop of `distribute_evidence`. -/
def distBody₁ (jt : JT V) (s : ℕ) (st : MState V S K) (nb : ℕ) : Except Err (MState V S K) :=
  if nb ∈ st.2 then .ok st else do
    let p ← passMessage jt st.1 s nb
    return (p, st.2)

/-- Second loop of `distribute_evidence`. -/
def distBody₂ (jt : JT V) (ord : ℕ → List ℕ) (fuel : ℕ) (st : MState V S K) (nb : ℕ) :
    Except Err (MState V S K) :=
  if nb ∈ st.2 then .ok st else distribute jt ord fuel nb st

theorem distribute_succ (jt : JT V) (ord : ℕ → List ℕ) (fuel s : ℕ) (st : MState V S K) :
    distribute jt ord (fuel + 1) s st = (do
      let st ← (ord s).foldlM (distBody₁ jt s) (st.1, s :: st.2)
      (ord s).foldlM (distBody₂ jt ord fuel) st) := by
  rw [distribute]; rfl

end

section
variable {V S K : Type} [LinearOrder V] [DecidableEq S]
variable [Field K] [LinearOrder K] [IsStrictOrderedRing K]

/-- The separator node `pass_message` uses between two cliques. -/
def edgeOf (jt : JT V) (i j : ℕ) : Option (ℕ × ℕ) :=
  jt.edges.find? (fun e => e = (i, j) ∨ e = (j, i))

omit [LinearOrder V] in
theorem edgeOf_comm (jt : JT V) (i j : ℕ) : edgeOf jt i j = edgeOf jt j i := by
  unfold edgeOf
  congr 1
  funext e
  exact decide_eq_decide.2 or_comm

omit [LinearOrder V] in
theorem edgeOf_some {jt : JT V} {i j : ℕ} {e : ℕ × ℕ} (h : edgeOf jt i j = some e) :
    (e = (i, j) ∨ e = (j, i)) ∧ e ∈ jt.edges := by
  refine ⟨?_, List.mem_of_find?_eq_some h⟩
  simpa using List.find?_some h

omit [LinearOrder V] in
theorem edgeOf_exists {jt : JT V} {i j : ℕ} (h : (i, j) ∈ jt.edges ∨ (j, i) ∈ jt.edges) :
    ∃ e, edgeOf jt i j = some e := by
  unfold edgeOf
  rw [← Option.isSome_iff_exists, List.find?_isSome]
  rcases h with h | h
  · exact ⟨_, h, by simp⟩
  · exact ⟨_, h, by simp⟩

theorem label_of_edge {cl : List (Finset V)} {i j : ℕ} {e : ℕ × ℕ}
    (h : e = (i, j) ∨ e = (j, i)) : label cl e = clq cl i ∩ clq cl j := by
  rcases h with rfl | rfl
  · rfl
  · rw [label, Finset.inter_comm]

/-- Tables of the cliques and separators hold given functions. -/
abbrev CRep (dom : V → List S) (jt : JT V) (st : PState V S K) (i : ℕ) (f : (V → S) → K) : Prop :=
  Rep dom (names (clq jt.cliques i)) (st.cp i) f

abbrev SRep (dom : V → List S) (jt : JT V) (st : PState V S K) (e : ℕ × ℕ) (f : (V → S) → K) :
    Prop :=
  Rep dom (names (label jt.cliques e)) (st.sp e) f

theorem names_nodup (c : Finset V) : (names c).Nodup := Finset.sort_nodup _ _

theorem mem_names {c : Finset V} {v : V} : v ∈ names c ↔ v ∈ c := Finset.mem_sort _

theorem sumOver_names_filter [AddCommMonoid K] (dom : V → List S) {A B : Finset V}
    (f : (V → S) → K) (x : V → S) :
    sumOver dom ((names A).filter (· ∉ names (A ∩ B))) f x = sumF dom (A \ B) f x := by
  apply sumOver_perm
  apply (List.perm_ext_iff_of_nodup ((names_nodup A).filter _) (Finset.sort_nodup _ _)).2
  intro v
  simp only [List.mem_filter, mem_names, decide_eq_true_eq, Finset.mem_inter, Finset.mem_sort,
    Finset.mem_sdiff]
  tauto

/-- One message. -/
theorem passMessage_rep {dom : V → List S} (hd : ∀ v, (dom v).Nodup) {x₀ : V → S}
    (hx₀ : Valid dom x₀) {jt : JT V} {st : PState V S K} {i j : ℕ} {e : ℕ × ℕ}
    (he : edgeOf jt i j = some e) {f g o : (V → S) → K} (hf : CRep dom jt st i f)
    (hg : CRep dom jt st j g) (ho : SRep dom jt st e o)
    (hz : ∀ x, Valid dom x → g x ≠ 0 → o x ≠ 0) :
    ∃ t n, passMessage jt st i j = .ok ⟨update st.cp j t, update st.sp e n⟩ ∧
      Rep dom (names (label jt.cliques e)) n
        (sumF dom (clq jt.cliques i \ clq jt.cliques j) f) ∧
      Rep dom (names (clq jt.cliques j)) t (fun x => if g x = 0 then 0 else
        g x * (sumF dom (clq jt.cliques i \ clq jt.cliques j) f x / o x)) := by
  have hl := label_of_edge (cl := jt.cliques) (edgeOf_some he).1
  have hsub₁ : ∀ r ∈ names (label jt.cliques e), r ∈ names (clq jt.cliques i) := by
    intro r hr
    rw [mem_names, hl] at hr
    rw [mem_names]
    exact (Finset.mem_inter.1 hr).1
  have hsub₂ : ∀ r ∈ names (label jt.cliques e), r ∈ names (clq jt.cliques j) := by
    intro r hr
    rw [mem_names, hl] at hr
    rw [mem_names]
    exact (Finset.mem_inter.1 hr).2
  obtain ⟨n, hn, hnr⟩ := project_rep hd (names_nodup _) (names_nodup _) hsub₁ hf hx₀
  have hnr' : Rep dom (names (label jt.cliques e)) n
      (sumF dom (clq jt.cliques i \ clq jt.cliques j) f) := by
    refine hnr.congr fun x _ => ?_
    rw [hl]
    exact sumOver_names_filter dom f x
  obtain ⟨t, ht, htr⟩ := absorb_rep hd (names_nodup _) hsub₂ hg hnr' ho hz hx₀
  refine ⟨t, n, ?_, hnr', htr⟩
  unfold passMessage
  unfold edgeOf at he
  rw [he]
  simp only [hn, ht, bind, Except.bind]
  rfl

/-! ### Shape of the recursion -/

/-- The forest describes how the tree is visited from `s`: roots are neighbours of `s`, and below
each root come its neighbours other than `s`, in visiting order. -/
def RF.Fits (jt : JT V) (ord : ℕ → List ℕ) : ℕ → RF → Prop
  | _, .nil => True
  | s, .cons i kids sibs =>
    ((s, i) ∈ jt.edges ∨ (i, s) ∈ jt.edges) ∧ (ord i).filter (· ≠ s) = kids.roots ∧
      kids.Fits jt ord i ∧ sibs.Fits jt ord s

/-- Separators between cliques of the forest, or between the forest and `s`. -/
def RF.Touch (s : ℕ) (f : RF) (e : ℕ × ℕ) : Prop :=
  (e.1 ∈ f.labels ∧ (e.2 = s ∨ e.2 ∈ f.labels)) ∨ (e.2 ∈ f.labels ∧ (e.1 = s ∨ e.1 ∈ f.labels))

theorem RF.Touch.kids {s i : ℕ} {kids sibs : RF} {e : ℕ × ℕ} (h : kids.Touch i e) :
    (RF.cons i kids sibs).Touch s e := by
  simp only [Touch, labels, List.mem_cons, List.mem_append] at h ⊢
  tauto

theorem RF.Touch.sibs {s i : ℕ} {kids sibs : RF} {e : ℕ × ℕ} (h : sibs.Touch s e) :
    (RF.cons i kids sibs).Touch s e := by
  simp only [Touch, labels, List.mem_cons, List.mem_append] at h ⊢
  tauto

theorem RF.Touch.root {s i : ℕ} {kids sibs : RF} {e : ℕ × ℕ} (h : e = (s, i) ∨ e = (i, s)) :
    (RF.cons i kids sibs).Touch s e := by
  rcases h with rfl | rfl <;> simp [Touch, labels]

theorem RF.Touch.not_kids_sibs {s i : ℕ} {kids sibs : RF} {e : ℕ × ℕ}
    (hnd : (RF.cons i kids sibs).labels.Nodup) (hs : s ∉ (RF.cons i kids sibs).labels)
    (h : kids.Touch i e) (h' : sibs.Touch s e) : False := by
  simp only [labels, List.nodup_cons, List.mem_append, not_or, List.nodup_append, List.mem_cons]
    at hnd hs
  obtain ⟨⟨hik, his⟩, -, -, hdis⟩ := hnd
  have hdis' : ∀ j, j ∈ kids.labels → j ∈ sibs.labels → False := fun j h h' => hdis j h j h' rfl
  rcases h with ⟨h1, h2⟩ | ⟨h1, h2⟩ <;> rcases h' with ⟨h3, h4⟩ | ⟨h3, h4⟩
  · exact hdis' _ h1 h3
  · rcases h2 with h2 | h2
    · exact his (h2 ▸ h3)
    · exact hdis' _ h2 h3
  · rcases h2 with h2 | h2
    · exact his (h2 ▸ h3)
    · exact hdis' _ h2 h3
  · exact hdis' _ h1 h3

theorem RF.Touch.not_root_kids {s i : ℕ} {kids sibs : RF} {e : ℕ × ℕ}
    (hnd : (RF.cons i kids sibs).labels.Nodup) (hs : s ∉ (RF.cons i kids sibs).labels)
    (h : e = (s, i) ∨ e = (i, s)) (h' : kids.Touch i e) : False := by
  simp only [labels, List.nodup_cons, List.mem_append, not_or, List.mem_cons] at hnd hs
  obtain ⟨⟨hik, his⟩, -⟩ := hnd
  rcases h with rfl | rfl <;> rcases h' with ⟨h1, h2⟩ | ⟨h1, h2⟩ <;> simp_all

theorem RF.Touch.not_root_sibs {s i : ℕ} {kids sibs : RF} {e : ℕ × ℕ}
    (hnd : (RF.cons i kids sibs).labels.Nodup) (hs : s ∉ (RF.cons i kids sibs).labels)
    (h : e = (s, i) ∨ e = (i, s)) (h' : sibs.Touch s e) : False := by
  simp only [labels, List.nodup_cons, List.mem_append, not_or, List.mem_cons] at hnd hs
  obtain ⟨⟨hik, his⟩, -⟩ := hnd
  rcases h with rfl | rfl <;> rcases h' with ⟨h1, h2⟩ | ⟨h1, h2⟩ <;> simp_all

/-- What `collect_evidence` leaves in the tables below `s`. -/
def RF.Collected (dom : V → List S) (jt : JT V) (φ : ℕ → (V → S) → K) (st : PState V S K) :
    ℕ → RF → Prop
  | _, .nil => True
  | s, .cons i kids sibs =>
    CRep dom jt st i (fun y => φ i y * kids.msgs dom jt.cliques φ i y) ∧
    (∀ e, edgeOf jt s i = some e → SRep dom jt st e
      (sumF dom (clq jt.cliques i \ clq jt.cliques s)
        (fun y => φ i y * kids.msgs dom jt.cliques φ i y))) ∧
    kids.Collected dom jt φ st i ∧ sibs.Collected dom jt φ st s

omit [LinearOrder K] [IsStrictOrderedRing K] in
theorem RF.Collected.congr {dom : V → List S} {jt : JT V} {φ : ℕ → (V → S) → K}
    {st st' : PState V S K} {s : ℕ} {f : RF} (h : f.Collected dom jt φ st s)
    (hc : ∀ j ∈ f.labels, st'.cp j = st.cp j)
    (hs : ∀ e : ℕ × ℕ, f.Touch s e → st'.sp e = st.sp e) :
    f.Collected dom jt φ st' s := by
  induction f generalizing s with
  | nil => trivial
  | cons i kids sibs ihk ihs =>
    obtain ⟨h1, h2, h3, h4⟩ := h
    refine ⟨?_, ?_, ihk h3 ?_ ?_, ihs h4 ?_ ?_⟩
    · rw [CRep, hc i (by simp [labels])]; exact h1
    · intro e he
      rw [SRep, hs e (.root (edgeOf_some he).1)]
      exact h2 e he
    · intro j hj; exact hc j (by simp [labels, hj])
    · intro e he; exact hs e he.kids
    · intro j hj; exact hc j (by simp [labels, hj])
    · intro e he; exact hs e he.sibs

/-! ### Collect -/

theorem foldlM_skip {ε σ α : Type} {b : σ → α → Except ε σ} {l : List α} {st : σ}
    (h : ∀ a ∈ l, b st a = .ok st) : l.foldlM b st = .ok st := by
  induction l with
  | nil => rfl
  | cons a l ih =>
    rw [List.foldlM_cons, h a List.mem_cons_self]
    exact ih fun a ha => h a (List.mem_cons_of_mem _ ha)

theorem split_filter {mk : List ℕ} {l : List ℕ} {i : ℕ} {rs : List ℕ}
    (h : l.filter (· ∉ mk) = i :: rs) :
    ∃ l₁ l₂, l = l₁ ++ i :: l₂ ∧ (∀ a ∈ l₁, a ∈ mk) ∧ i ∉ mk ∧ l₂.filter (· ∉ mk) = rs := by
  obtain ⟨l₁, l₂, h1, h2, h3, h4⟩ := List.filter_eq_cons_iff.1 h
  exact ⟨l₁, l₂, h1, fun a ha => by simpa using h2 a ha, by simpa using h3, h4⟩

theorem filter_congr_marks {l rs mk mk' : List ℕ} (h : l.filter (· ∉ mk) = rs)
    (hsub : ∀ a ∈ mk, a ∈ mk') (hrs : ∀ a ∈ rs, a ∉ mk') : l.filter (· ∉ mk') = rs := by
  subst h
  rw [List.filter_eq_filter_iff_of_mem]
  intro a ha
  by_cases hm : a ∈ mk
  · simp [hm, hsub a hm]
  · have := hrs a (List.mem_filter.2 ⟨ha, by simpa using hm⟩)
    simp [hm, this]
where
  List.filter_eq_filter_iff_of_mem {p q : ℕ → Bool} {l : List ℕ} :
      (l.filter p = l.filter q) = (∀ a ∈ l, p a = q a) := by
    apply propext
    constructor
    · intro h a ha
      have h1 : a ∈ l.filter p ↔ a ∈ l.filter q := by rw [h]
      simp only [List.mem_filter, ha, true_and] at h1
      exact Bool.eq_iff_iff.2 h1
    · intro h; exact List.filter_congr h

theorem collect_loop {dom : V → List S} (hd : ∀ v, (dom v).Nodup) {x₀ : V → S}
    (hx₀ : Valid dom x₀) {jt : JT V} {ord : ℕ → List ℕ} {φ : ℕ → (V → S) → K} (f : RF) :
    ∀ {s : ℕ} {l : List ℕ} {st : PState V S K} {mk : List ℕ} {fuel : ℕ} {g : (V → S) → K},
    f.Fits jt ord s → f.labels.length ≤ fuel → l.filter (· ∉ mk) = f.roots → f.labels.Nodup →
    s ∈ mk → (∀ i ∈ f.labels, i ∉ mk) → CRep dom jt st s g →
    (∀ i ∈ f.labels, CRep dom jt st i (φ i)) →
    (∀ e : ℕ × ℕ, f.Touch s e → SRep dom jt st e (fun _ => 1)) →
    ∃ st' mk', l.foldlM (collectBody jt ord fuel s) (st, mk) = .ok (st', mk') ∧
      (∀ j, j ∈ mk' ↔ j ∈ mk ∨ j ∈ f.labels) ∧
      CRep dom jt st' s (fun x => g x * f.msgs dom jt.cliques φ s x) ∧
      f.Collected dom jt φ st' s ∧
      (∀ j, j ∉ f.labels → j ≠ s → st'.cp j = st.cp j) ∧
      (∀ e : ℕ × ℕ, ¬ f.Touch s e → st'.sp e = st.sp e) := by
  induction f with
  | nil =>
    intro s l st mk fuel g _ _ hl _ _ _ hg _ _
    refine ⟨st, mk, ?_, by simp [RF.labels], ?_, trivial, fun _ _ _ => rfl, fun _ _ => rfl⟩
    · apply foldlM_skip
      intro a ha
      have : a ∈ mk := by
        by_contra hn
        have : a ∈ l.filter (· ∉ mk) := List.mem_filter.2 ⟨ha, by simpa using hn⟩
        rw [hl] at this
        simp [RF.roots] at this
      simp [collectBody, this]
    · exact hg.congr fun x _ => by simp [RF.msgs]
  | cons i kids sibs ihk ihs =>
    intro s l st mk fuel g hfit hfuel hl hnd hs hmk hg hφ hsp
    obtain ⟨hadj, hroots, hfk, hfs⟩ := hfit
    obtain ⟨l₁, l₂, rfl, hl₁, hi, hl₂⟩ := split_filter hl
    have hnd' := hnd
    simp only [RF.labels, List.nodup_cons, List.mem_append, not_or, List.nodup_append] at hnd'
    obtain ⟨⟨hik, his⟩, hndk, hnds, hdis⟩ := hnd'
    obtain ⟨fuel, rfl⟩ : ∃ k, fuel = k + 1 := by
      cases fuel with
      | zero => simp [RF.labels] at hfuel
      | succ k => exact ⟨k, rfl⟩
    simp only [RF.labels, List.length_cons, List.length_append] at hfuel
    have hsi : s ≠ i := fun h => hi (h ▸ hs)
    have hmem_k : ∀ j ∈ kids.labels, j ∈ (RF.cons i kids sibs).labels := by
      intro j hj; simp [RF.labels, hj]
    have hmem_s : ∀ j ∈ sibs.labels, j ∈ (RF.cons i kids sibs).labels := by
      intro j hj; simp [RF.labels, hj]
    have hmem_i : i ∈ (RF.cons i kids sibs).labels := by simp [RF.labels]
    -- the recursive call on `i`
    have hk_mk : ∀ j ∈ kids.labels, j ∉ i :: mk := by
      intro j hj
      rw [List.mem_cons, not_or]
      exact ⟨fun h => hik (h ▸ hj), hmk j (hmem_k j hj)⟩
    have hordi : (ord i).filter (· ∉ i :: mk) = kids.roots := by
      have h1 : (ord i).filter (· ∉ [s]) = kids.roots := by
        rw [← hroots]; apply List.filter_congr; intro a _; simp
      exact filter_congr_marks h1 (by simpa using Or.inr hs)
        (fun a ha => hk_mk a (RF.roots_subset _ a ha))
    obtain ⟨st₁, mk₁, hrun₁, hmk₁, hβ, hcol₁, hfr₁, hfs₁⟩ :=
      ihk (s := i) (l := ord i) (st := st) (mk := i :: mk) (fuel := fuel) (g := φ i) hfk
        (by omega) hordi hndk List.mem_cons_self hk_mk (hφ i hmem_i)
        (fun j hj => hφ j (hmem_k j hj))
        (fun e he => hsp e he.kids)
    obtain ⟨e, he⟩ := edgeOf_exists (jt := jt) (i := i) (j := s) hadj.symm
    have heq := (edgeOf_some he).1
    have hsl : s ∉ (RF.cons i kids sibs).labels := fun h => hmk s h hs
    have hskl : s ∉ kids.labels := fun h => hmk s (hmem_k s h) hs
    have hssl : s ∉ sibs.labels := fun h => hmk s (hmem_s s h) hs
    have hg₁ : CRep dom jt st₁ s g := by
      rw [CRep, hfr₁ s hskl hsi]; exact hg
    have hsp₁ : SRep dom jt st₁ e (fun _ => 1) := by
      rw [SRep, hfs₁ e (fun h => RF.Touch.not_root_kids hnd hsl heq.symm h)]
      exact hsp e (.root heq.symm)
    obtain ⟨t, n, hpass, hn, ht⟩ := passMessage_rep hd hx₀ he hβ hg₁ hsp₁ (by simp)
    let st₂ : PState V S K := ⟨update st₁.cp s t, update st₁.sp e n⟩
    have hbody : collectBody jt ord (fuel + 1) s (st, mk) i = .ok (st₂, mk₁) := by
      simp only [collectBody, hi, if_false]
      rw [collect_succ]
      simp only [hrun₁, bind, Except.bind, hpass]
      rfl
    -- the siblings
    have hmk₁' : ∀ j, j ∈ mk₁ ↔ j = i ∨ j ∈ mk ∨ j ∈ kids.labels := by
      intro j; rw [hmk₁ j, List.mem_cons, or_assoc]
    have hs_mk : ∀ j ∈ sibs.labels, j ∉ mk₁ := by
      intro j hj hjm
      rcases (hmk₁' j).1 hjm with rfl | h | h
      · exact his hj
      · exact hmk j (hmem_s j hj) h
      · exact hdis j h j hj rfl
    obtain ⟨st₃, mk₃, hrun₃, hmk₃, hg₃, hcol₃, hfr₃, hfs₃⟩ :=
      ihs (s := s) (l := l₂) (st := st₂) (mk := mk₁) (fuel := fuel + 1)
        (g := fun x => g x * sumF dom (clq jt.cliques i \ clq jt.cliques s)
          (fun y => φ i y * kids.msgs dom jt.cliques φ i y) x) hfs (by omega)
        (filter_congr_marks hl₂ (fun a ha => (hmk₁' a).2 (Or.inr (Or.inl ha)))
          (fun a ha => hs_mk a (RF.roots_subset _ a ha))) hnds
        ((hmk₁' s).2 (Or.inr (Or.inl hs))) hs_mk
        (by
          simp only [CRep, st₂, update_self]
          refine ht.congr fun x _ => ?_
          by_cases h0 : g x = 0
          · simp [h0]
          · simp [h0])
        (by
          intro j hj
          have hjs : j ≠ s := fun h => hssl (h ▸ hj)
          have hji : j ≠ i := fun h => his (h ▸ hj)
          have hjk : j ∉ kids.labels := fun h => hdis j h j hj rfl
          simp only [CRep, st₂, update_of_ne hjs]
          rw [hfr₁ j hjk hji]
          exact hφ j (hmem_s j hj))
        (by
          intro e' he'
          have hne : e' ≠ e := fun h => RF.Touch.not_root_sibs hnd hsl heq.symm (h ▸ he')
          simp only [SRep, st₂, update_of_ne hne]
          rw [hfs₁ e' (fun h => RF.Touch.not_kids_sibs hnd hsl h he')]
          exact hsp e' he'.sibs)
    refine ⟨st₃, mk₃, ?_, ?_, ?_, ?_, ?_, ?_⟩
    · rw [List.foldlM_append, foldlM_skip (fun a ha => by simp [collectBody, hl₁ a ha])]
      simp only [bind, Except.bind, List.foldlM_cons, hbody]
      exact hrun₃
    · intro j
      rw [hmk₃, hmk₁']
      simp only [RF.labels, List.mem_cons, List.mem_append]
      tauto
    · refine hg₃.congr fun x _ => ?_
      simp only [RF.msgs]
      ring
    · refine ⟨?_, ?_, ?_, hcol₃⟩
      · rw [CRep, hfr₃ i his hsi.symm]
        simp only [st₂, update_of_ne hsi.symm]
        exact hβ
      · intro e' he'
        rw [edgeOf_comm, he] at he'
        obtain rfl := Option.some.inj he'
        rw [SRep, hfs₃ e (fun h => RF.Touch.not_root_sibs hnd hsl heq.symm h)]
        simp only [st₂, update_self]
        exact hn
      · refine hcol₁.congr ?_ ?_
        · intro j hj
          have hjs : j ≠ s := fun h => hskl (h ▸ hj)
          rw [hfr₃ j (fun h => hdis j hj j h rfl) hjs]
          simp only [st₂, update_of_ne hjs]
        · intro e' he'
          have hne : e' ≠ e := fun h => RF.Touch.not_root_kids hnd hsl heq.symm (h ▸ he')
          rw [hfs₃ e' (fun h => RF.Touch.not_kids_sibs hnd hsl he' h)]
          simp only [st₂, update_of_ne hne]
    · intro j hj hjs
      simp only [RF.labels, List.mem_cons, List.mem_append, not_or] at hj
      rw [hfr₃ j hj.2.2 hjs]
      simp only [st₂, update_of_ne hjs]
      exact hfr₁ j hj.2.1 hj.1
    · intro e' he'
      have hne : e' ≠ e := by
        rintro rfl
        exact he' (.root heq.symm)
      rw [hfs₃ e' (fun h => he' h.sibs)]
      simp only [st₂, update_of_ne hne]
      exact hfs₁ e' (fun h => he' h.kids)

/-! ### Distribute -/

/-- The function every clique `i` ends up with: the joint summed over the variables outside. -/
def final (dom : V → List S) (cl : List (Finset V)) (U : Finset V) (p : (V → S) → K) (i : ℕ) :
    (V → S) → K :=
  sumF dom (U \ clq cl i) p

omit [DecidableEq S] in
theorem msgs_nonneg {dom : V → List S} {cl : List (Finset V)} {φ : ℕ → (V → S) → K}
    (hpos : ∀ i x, Valid dom x → 0 ≤ φ i x) {f : RF} {s : ℕ} {x : V → S} (hx : Valid dom x) :
    0 ≤ f.msgs dom cl φ s x := by
  induction f generalizing s x with
  | nil => simp [RF.msgs]
  | cons i kids sibs ihk ihs =>
    simp only [RF.msgs]
    refine mul_nonneg (sumOver_nonneg dom (fun y hy => ?_) hx) (ihs hx)
    exact mul_nonneg (hpos i y hy) (ihk hy)

omit [DecidableEq S] in
/-- Absorbing the message from the parent produces the marginal of the joint. -/
theorem child_eq {dom : V → List S} {cl : List (Finset V)} {φ : ℕ → (V → S) → K}
    (hφ : ∀ i, DependsOn (φ i) (clq cl i : Set V)) (hpos : ∀ i x, Valid dom x → 0 ≤ φ i x)
    {s i : ℕ} {kids : RF} {R U : Finset V} {p B : (V → S) → K}
    (hsep : (clq cl i ∪ kids.vars cl) ∩ R ⊆ clq cl s ∩ clq cl i)
    (hrk : RF.Rip cl i (R ∪ clq cl i) kids) (hsR : clq cl s ⊆ R)
    (hU : U = (clq cl i ∪ kids.vars cl) ∪ R) (hB : DependsOn B (R : Set V))
    (hp : ∀ x, p x = φ i x * kids.prodF φ x * B x) {x : V → S} (hx : Valid dom x) :
    (if φ i x * kids.msgs dom cl φ i x = 0 then 0 else
      φ i x * kids.msgs dom cl φ i x *
        (sumF dom (clq cl s \ clq cl i) (final dom cl U p s) x /
          sumF dom (clq cl i \ clq cl s) (fun y => φ i y * kids.msgs dom cl φ i y) x)) =
      final dom cl U p i x ∧
    (φ i x * kids.msgs dom cl φ i x ≠ 0 →
      sumF dom (clq cl i \ clq cl s) (fun y => φ i y * kids.msgs dom cl φ i y) x ≠ 0) := by
  set Ci := clq cl i with hCi
  set Cs := clq cl s with hCs
  set sub := Ci ∪ kids.vars cl with hsub
  have hA : DependsOn (fun y => φ i y * kids.prodF φ y) (sub : Set V) := by
    intro a b h
    simp only
    rw [hφ i (fun v hv => h v ?_), RF.prodF_dependsOn hφ kids (fun v hv => h v ?_)]
    · simp only [sub, Finset.coe_union, Set.mem_union]; exact Or.inr hv
    · simp only [sub, Finset.coe_union, Set.mem_union]; exact Or.inl hv
  obtain ⟨d1, d2⟩ := RF.down_step (dom := dom) (L := Cs ∩ Ci) (Ci := Ci) hp hA hB hU hsep
    Finset.inter_subset_right Finset.subset_union_left
    (fun v hvR hvC => Finset.mem_inter.2 ⟨(Finset.mem_inter.1 (hsep
      (Finset.mem_inter.2 ⟨Finset.mem_union_left _ hvC, hvR⟩))).1, hvC⟩) x
  have hβ : ∀ y, φ i y * kids.msgs dom cl φ i y =
      sumF dom (sub \ Ci) (fun y => φ i y * kids.prodF φ y) y := by
    intro y
    have hset : sub \ Ci = kids.vars cl \ Ci := by
      rw [hsub, Finset.union_sdiff_distrib, Finset.sdiff_self, Finset.empty_union]
    rw [RF.msgs_eq hφ hrk Finset.subset_union_right, RF.sumF_congr' hset (fun _ => rfl),
      sumF_mul_left dom (hφ i) (fun v hv hv' => (Finset.mem_sdiff.1 hv).2 hv')]
  have hm : sumF dom (Ci \ Cs) (fun y => φ i y * kids.msgs dom cl φ i y) x =
      sumF dom (sub \ (Cs ∩ Ci)) (fun y => φ i y * kids.prodF φ y) x := by
    have hset : sub \ (Cs ∩ Ci) = (Ci \ Cs) ∪ (sub \ Ci) := by
      ext v
      simp only [hsub, Finset.mem_sdiff, Finset.mem_union, Finset.mem_inter]
      tauto
    rw [RF.sumF_congr' hset (fun _ => rfl), sumF_union dom, RF.sumF_congr' rfl hβ]
    rw [Finset.disjoint_left]
    intro v hv hv'
    exact (Finset.mem_sdiff.1 hv').2 (Finset.mem_sdiff.1 hv).1
  have hnew : sumF dom (Cs \ Ci) (final dom cl U p s) x = sumF dom (U \ (Cs ∩ Ci)) p x := by
    have hset : U \ (Cs ∩ Ci) = (Cs \ Ci) ∪ (U \ Cs) := by
      ext v
      have : v ∈ Cs → v ∈ U := fun h => by
        rw [hU]; exact Finset.mem_union_right _ (hsR h)
      simp only [Finset.mem_sdiff, Finset.mem_union, Finset.mem_inter]
      tauto
    rw [RF.sumF_congr' hset (fun _ => rfl), sumF_union dom]
    · rfl
    · rw [Finset.disjoint_left]
      intro v hv hv'
      exact (Finset.mem_sdiff.1 hv').2 (Finset.mem_sdiff.1 hv).1
  have hβpos : ∀ y, Valid dom y → 0 ≤ φ i y * kids.msgs dom cl φ i y := fun y hy =>
    mul_nonneg (hpos i y hy) (msgs_nonneg hpos hy)
  have hzero : sumF dom (Ci \ Cs) (fun y => φ i y * kids.msgs dom cl φ i y) x = 0 →
      φ i x * kids.msgs dom cl φ i x = 0 := fun h0 =>
    sumOver_eq_zero (f := fun y => φ i y * kids.msgs dom cl φ i y) dom hβpos hx h0
  refine ⟨?_, fun h h' => h (hzero h')⟩
  rw [hnew, d2, final, d1, ← hm, ← hβ x]
  by_cases h0 : φ i x * kids.msgs dom cl φ i x = 0
  · simp [h0]
  · have hm0 : sumF dom (Ci \ Cs) (fun y => φ i y * kids.msgs dom cl φ i y) x ≠ 0 :=
      fun h => h0 (hzero h)
    rw [if_neg h0]
    field_simp

theorem dist_loop₁ {dom : V → List S} (hd : ∀ v, (dom v).Nodup) {x₀ : V → S}
    (hx₀ : Valid dom x₀) {jt : JT V} {ord : ℕ → List ℕ} {φ : ℕ → (V → S) → K}
    (hφ : ∀ i, DependsOn (φ i) (clq jt.cliques i : Set V))
    (hpos : ∀ i x, Valid dom x → 0 ≤ φ i x) {U : Finset V} {p : (V → S) → K} (f : RF) :
    ∀ {s : ℕ} {l : List ℕ} {st : PState V S K} {mk : List ℕ} {O : Finset V} {B : (V → S) → K},
    f.Fits jt ord s → l.filter (· ∉ mk) = f.roots → f.labels.Nodup →
    s ∈ mk → (∀ i ∈ f.labels, i ∉ mk) → CRep dom jt st s (final dom jt.cliques U p s) →
    f.Collected dom jt φ st s →
    f.Rip jt.cliques s O → clq jt.cliques s ⊆ O → U = f.vars jt.cliques ∪ O →
    DependsOn B (O : Set V) → (∀ x, p x = f.prodF φ x * B x) →
    ∃ st', l.foldlM (distBody₁ jt s) (st, mk) = .ok (st', mk) ∧
      (∀ i ∈ f.roots, CRep dom jt st' i (final dom jt.cliques U p i)) ∧
      (∀ j, j ∉ f.roots → st'.cp j = st.cp j) ∧
      (∀ e : ℕ × ℕ, (∀ i ∈ f.roots, e ≠ (s, i) ∧ e ≠ (i, s)) → st'.sp e = st.sp e) := by
  induction f with
  | nil =>
    intro s l st mk O B _ hl _ _ _ _ _ _ _ _ _ _
    refine ⟨st, ?_, by simp [RF.roots], fun _ _ => rfl, fun _ _ => rfl⟩
    apply foldlM_skip
    intro a ha
    have : a ∈ mk := by
      by_contra hn
      have : a ∈ l.filter (· ∉ mk) := List.mem_filter.2 ⟨ha, by simpa using hn⟩
      rw [hl] at this
      simp [RF.roots] at this
    simp [distBody₁, this]
  | cons i kids sibs _ ihs =>
    intro s l st mk O B hfit hl hnd hs hmk hfin hcol hrip hsO hU hB hp
    obtain ⟨hadj, hroots, hfk, hfs⟩ := hfit
    obtain ⟨hc1, hc2, hc3, hc4⟩ := hcol
    obtain ⟨hr1, hr2, hr3⟩ := hrip
    obtain ⟨l₁, l₂, rfl, hl₁, hi, hl₂⟩ := split_filter hl
    have hnd' := hnd
    simp only [RF.labels, List.nodup_cons, List.mem_append, not_or, List.nodup_append] at hnd'
    obtain ⟨⟨hik, his⟩, hndk, hnds, hdis⟩ := hnd'
    have hsi : s ≠ i := fun h => hi (h ▸ hs)
    have hsl : s ∉ (RF.cons i kids sibs).labels := fun h => hmk s h hs
    have hmem_s : ∀ j ∈ sibs.labels, j ∈ (RF.cons i kids sibs).labels := by
      intro j hj; simp [RF.labels, hj]
    obtain ⟨e, he⟩ := edgeOf_exists (jt := jt) (i := s) (j := i) hadj
    have heq := (edgeOf_some he).1
    have hBR : DependsOn (fun x => B x * sibs.prodF φ x)
        ((O ∪ sibs.vars jt.cliques : Finset V) : Set V) := by
      intro a b h
      simp only
      rw [hB (fun v hv => h v ?_), RF.prodF_dependsOn hφ sibs (fun v hv => h v ?_)]
      · simp only [Finset.coe_union, Set.mem_union]; exact Or.inr hv
      · simp only [Finset.coe_union, Set.mem_union]; exact Or.inl hv
    have hchild : ∀ x, Valid dom x → _ := fun x hx =>
      child_eq (dom := dom) (s := s) (kids := kids) (U := U) (p := p) hφ hpos hr1 hr2
        (hsO.trans Finset.subset_union_left)
        (by rw [hU, RF.vars]; ac_rfl) hBR (fun x => by rw [hp x, RF.prodF]; ring) hx
    obtain ⟨t, n, hpass, hn, ht⟩ := passMessage_rep hd hx₀ he hfin hc1 (hc2 e he)
      (fun x hx => (hchild x hx).2)
    let st₁ : PState V S K := ⟨update st.cp i t, update st.sp e n⟩
    have hbody : distBody₁ jt s (st, mk) i = .ok (st₁, mk) := by
      simp only [distBody₁, hi, if_false, hpass]
      rfl
    obtain ⟨st₂, hrun₂, hfin₂, hfr₂, hfs₂⟩ :=
      ihs (s := s) (l := l₂) (st := st₁) (mk := mk)
        (O := O ∪ (clq jt.cliques i ∪ kids.vars jt.cliques))
        (B := fun x => B x * (φ i x * kids.prodF φ x)) hfs hl₂ hnds hs
        (fun j hj => hmk j (hmem_s j hj))
        (by simp only [CRep, st₁, update_of_ne hsi]; exact hfin)
        (by
          refine hc4.congr ?_ ?_
          · intro j hj
            simp only [st₁, update_of_ne (show j ≠ i from fun h => his (h ▸ hj))]
          · intro e' he'
            have hne : e' ≠ e := fun h => RF.Touch.not_root_sibs hnd hsl heq (h ▸ he')
            simp only [st₁, update_of_ne hne])
        hr3 (hsO.trans Finset.subset_union_left)
        (by rw [hU, RF.vars]; ac_rfl)
        (by
          intro a b h
          simp only
          rw [hB (fun v hv => h v ?_), hφ i (fun v hv => h v ?_),
            RF.prodF_dependsOn hφ kids (fun v hv => h v ?_)]
          · simp only [Finset.coe_union, Set.mem_union]; exact Or.inr (Or.inr hv)
          · simp only [Finset.coe_union, Set.mem_union]; exact Or.inr (Or.inl hv)
          · simp only [Finset.coe_union, Set.mem_union]; exact Or.inl hv)
        (fun x => by rw [hp x, RF.prodF]; ring)
    have hir : i ∉ sibs.roots := fun h => his (RF.roots_subset _ _ h)
    refine ⟨st₂, ?_, ?_, ?_, ?_⟩
    · rw [List.foldlM_append, foldlM_skip (fun a ha => by simp [distBody₁, hl₁ a ha])]
      simp only [bind, Except.bind, List.foldlM_cons, hbody]
      exact hrun₂
    · intro j hj
      rcases List.mem_cons.1 hj with rfl | hj
      · rw [CRep, hfr₂ j hir]
        simp only [st₁, update_self]
        exact ht.congr fun x hx => (hchild x hx).1
      · exact hfin₂ j hj
    · intro j hj
      simp only [RF.roots, List.mem_cons, not_or] at hj
      rw [hfr₂ j hj.2]
      simp only [st₁, update_of_ne hj.1]
    · intro e' he'
      have h0 := he' i (by simp [RF.roots])
      have hne : e' ≠ e := by
        rintro rfl
        rcases heq with h | h
        · exact h0.1 h
        · exact h0.2 h
      rw [hfs₂ e' (fun j hj => he' j (by simp [RF.roots, hj]))]
      simp only [st₁, update_of_ne hne]

/-- State between the two loops: roots are final, everything below is still collected. -/
def RF.Ready (dom : V → List S) (jt : JT V) (φ : ℕ → (V → S) → K) (U : Finset V)
    (p : (V → S) → K) (st : PState V S K) : RF → Prop
  | .nil => True
  | .cons i kids sibs =>
    CRep dom jt st i (final dom jt.cliques U p i) ∧ kids.Collected dom jt φ st i ∧
      sibs.Ready dom jt φ U p st

omit [LinearOrder K] [IsStrictOrderedRing K] in
theorem RF.Ready.congr {dom : V → List S} {jt : JT V} {φ : ℕ → (V → S) → K} {U : Finset V}
    {p : (V → S) → K} {st st' : PState V S K} {f : RF} (h : f.Ready dom jt φ U p st)
    (hc : ∀ j ∈ f.labels, st'.cp j = st.cp j)
    (hs : ∀ e : ℕ × ℕ, e.1 ∈ f.labels → e.2 ∈ f.labels → st'.sp e = st.sp e) :
    f.Ready dom jt φ U p st' := by
  induction f with
  | nil => trivial
  | cons i kids sibs _ ihs =>
    obtain ⟨h1, h2, h3⟩ := h
    refine ⟨?_, h2.congr ?_ ?_, ihs h3 ?_ ?_⟩
    · rw [CRep, hc i (by simp [labels])]; exact h1
    · intro j hj; exact hc j (by simp [labels, hj])
    · intro e he
      apply hs
      · rcases he with ⟨h1, h2 | h2⟩ | ⟨h1, h2 | h2⟩ <;> simp [labels, h1, h2]
      · rcases he with ⟨h1, h2 | h2⟩ | ⟨h1, h2 | h2⟩ <;> simp [labels, h1, h2]
    · intro j hj; exact hc j (by simp [labels, hj])
    · intro e h1 h2
      apply hs <;> simp [labels, h1, h2]

omit [LinearOrder K] [IsStrictOrderedRing K] in
theorem RF.ready_of_collected {dom : V → List S} {jt : JT V} {φ : ℕ → (V → S) → K} {U : Finset V}
    {p : (V → S) → K} {st st' : PState V S K} {s : ℕ} {f : RF} (R : List ℕ)
    (hnd : f.labels.Nodup) (hs : s ∉ f.labels)
    (h : f.Collected dom jt φ st s)
    (hroots : ∀ i ∈ f.roots, CRep dom jt st' i (final dom jt.cliques U p i))
    (hR : ∀ j ∈ f.labels, j ∈ R → j ∈ f.roots)
    (hc : ∀ j, j ∉ R → st'.cp j = st.cp j)
    (hsp : ∀ e : ℕ × ℕ, (∀ i ∈ R, e ≠ (s, i) ∧ e ≠ (i, s)) → st'.sp e = st.sp e) :
    f.Ready dom jt φ U p st' := by
  induction f with
  | nil => trivial
  | cons i kids sibs _ ihs =>
    obtain ⟨h1, h2, h3, h4⟩ := h
    have hnd' := hnd
    simp only [RF.labels, List.nodup_cons, List.mem_append, not_or, List.nodup_append] at hnd'
    obtain ⟨⟨hik, his⟩, hndk, hnds, hdis⟩ := hnd'
    have hkR : ∀ j ∈ kids.labels, j ∉ R := by
      intro j hj hjR
      have := hR j (by simp [labels, hj]) hjR
      rcases List.mem_cons.1 this with rfl | h
      · exact hik hj
      · exact hdis j hj j (RF.roots_subset _ _ h) rfl
    refine ⟨hroots i (by simp [roots]), h3.congr ?_ ?_, ihs hnds ?_ h4 ?_ ?_⟩
    · intro j hj; exact hc j (hkR j hj)
    · intro e he
      apply hsp
      intro r hr
      have hsk : s ∉ kids.labels := fun h => hs (by simp [labels, h])
      have hrk : r ∉ kids.labels := fun h => hkR r h hr
      constructor
      · rintro rfl
        rcases he with ⟨h, -⟩ | ⟨h, -⟩
        · exact hsk h
        · exact hrk h
      · rintro rfl
        rcases he with ⟨h, -⟩ | ⟨h, -⟩
        · exact hrk h
        · exact hsk h
    · intro h; exact hs (by simp [labels, h])
    · intro j hj; exact hroots j (by simp [roots, hj])
    · intro j hj hjR
      have := hR j (by simp [labels, hj]) hjR
      rcases List.mem_cons.1 this with rfl | h
      · exact absurd hj his
      · exact h

theorem dist_loop₂ {dom : V → List S} (hd : ∀ v, (dom v).Nodup) {x₀ : V → S}
    (hx₀ : Valid dom x₀) {jt : JT V} {ord : ℕ → List ℕ} {φ : ℕ → (V → S) → K}
    (hφ : ∀ i, DependsOn (φ i) (clq jt.cliques i : Set V))
    (hpos : ∀ i x, Valid dom x → 0 ≤ φ i x) {U : Finset V} {p : (V → S) → K} (f : RF) :
    ∀ {s : ℕ} {l : List ℕ} {st : PState V S K} {mk : List ℕ} {fuel : ℕ} {O : Finset V}
      {B : (V → S) → K},
    f.Fits jt ord s → f.labels.length ≤ fuel → l.filter (· ∉ mk) = f.roots → f.labels.Nodup →
    s ∈ mk → (∀ i ∈ f.labels, i ∉ mk) → f.Ready dom jt φ U p st →
    f.Rip jt.cliques s O → clq jt.cliques s ⊆ O → U = f.vars jt.cliques ∪ O →
    DependsOn B (O : Set V) → (∀ x, p x = f.prodF φ x * B x) →
    ∃ st' mk', l.foldlM (distBody₂ jt ord fuel) (st, mk) = .ok (st', mk') ∧
      (∀ j, j ∈ mk' ↔ j ∈ mk ∨ j ∈ f.labels) ∧
      (∀ i ∈ f.labels, CRep dom jt st' i (final dom jt.cliques U p i)) ∧
      (∀ j, j ∉ f.labels → st'.cp j = st.cp j) ∧
      (∀ e : ℕ × ℕ, (e.1 ∉ f.labels ∨ e.2 ∉ f.labels) → st'.sp e = st.sp e) := by
  induction f with
  | nil =>
    intro s l st mk fuel O B _ _ hl _ _ _ _ _ _ _ _ _
    refine ⟨st, mk, ?_, by simp [RF.labels], by simp [RF.labels], fun _ _ => rfl, fun _ _ => rfl⟩
    apply foldlM_skip
    intro a ha
    have : a ∈ mk := by
      by_contra hn
      have : a ∈ l.filter (· ∉ mk) := List.mem_filter.2 ⟨ha, by simpa using hn⟩
      rw [hl] at this
      simp [RF.roots] at this
    simp [distBody₂, this]
  | cons i kids sibs ihk ihs =>
    intro s l st mk fuel O B hfit hfuel hl hnd hs hmk hready hrip hsO hU hB hp
    obtain ⟨hadj, hroots, hfk, hfs⟩ := hfit
    obtain ⟨hc1, hc2, hc3⟩ := hready
    obtain ⟨hr1, hr2, hr3⟩ := hrip
    obtain ⟨l₁, l₂, rfl, hl₁, hi, hl₂⟩ := split_filter hl
    have hnd' := hnd
    simp only [RF.labels, List.nodup_cons, List.mem_append, not_or, List.nodup_append] at hnd'
    obtain ⟨⟨hik, his⟩, hndk, hnds, hdis⟩ := hnd'
    obtain ⟨fuel, rfl⟩ : ∃ k, fuel = k + 1 := by
      cases fuel with
      | zero => simp [RF.labels] at hfuel
      | succ k => exact ⟨k, rfl⟩
    simp only [RF.labels, List.length_cons, List.length_append] at hfuel
    have hsi : s ≠ i := fun h => hi (h ▸ hs)
    have hsl : s ∉ (RF.cons i kids sibs).labels := fun h => hmk s h hs
    have hmem_k : ∀ j ∈ kids.labels, j ∈ (RF.cons i kids sibs).labels := by
      intro j hj; simp [RF.labels, hj]
    have hmem_s : ∀ j ∈ sibs.labels, j ∈ (RF.cons i kids sibs).labels := by
      intro j hj; simp [RF.labels, hj]
    have hk_mk : ∀ j ∈ kids.labels, j ∉ i :: mk := by
      intro j hj
      rw [List.mem_cons, not_or]
      exact ⟨fun h => hik (h ▸ hj), hmk j (hmem_k j hj)⟩
    have hordi : (ord i).filter (· ∉ i :: mk) = kids.roots := by
      have h1 : (ord i).filter (· ∉ [s]) = kids.roots := by
        rw [← hroots]; apply List.filter_congr; intro a _; simp
      exact filter_congr_marks h1 (by simpa using Or.inr hs)
        (fun a ha => hk_mk a (RF.roots_subset _ a ha))
    -- context of the kids
    have hUk : U = kids.vars jt.cliques ∪ (O ∪ sibs.vars jt.cliques ∪ clq jt.cliques i) := by
      rw [hU, RF.vars]; ac_rfl
    have hBk : DependsOn (fun x => B x * sibs.prodF φ x * φ i x)
        ((O ∪ sibs.vars jt.cliques ∪ clq jt.cliques i : Finset V) : Set V) := by
      intro a b h
      simp only
      rw [hB (fun v hv => h v ?_), RF.prodF_dependsOn hφ sibs (fun v hv => h v ?_),
        hφ i (fun v hv => h v ?_)]
      · simp only [Finset.coe_union, Set.mem_union]; exact Or.inr hv
      · simp only [Finset.coe_union, Set.mem_union]; exact Or.inl (Or.inr hv)
      · simp only [Finset.coe_union, Set.mem_union]; exact Or.inl (Or.inl hv)
    have hpk : ∀ x, p x = kids.prodF φ x * (B x * sibs.prodF φ x * φ i x) := fun x => by
      rw [hp x, RF.prodF]; ring
    obtain ⟨st₁, hrun₁, hfin₁, hfr₁, hfs₁⟩ :=
      dist_loop₁ hd hx₀ hφ hpos kids (s := i) (l := ord i) (st := st) (mk := i :: mk)
        hfk hordi hndk List.mem_cons_self hk_mk hc1 hc2 hr2 Finset.subset_union_right hUk hBk hpk
    have hready₁ : kids.Ready dom jt φ U p st₁ :=
      RF.ready_of_collected kids.roots hndk hik hc2 hfin₁ (fun _ _ h => h) hfr₁ hfs₁
    obtain ⟨st₂, mk₂, hrun₂, hmk₂, hfin₂, hfr₂, hfs₂⟩ :=
      ihk (s := i) (l := ord i) (st := st₁) (mk := i :: mk) (fuel := fuel) hfk (by omega) hordi
        hndk List.mem_cons_self hk_mk hready₁ hr2 Finset.subset_union_right hUk hBk hpk
    have hbody : distBody₂ jt ord (fuel + 1) (st, mk) i = .ok (st₂, mk₂) := by
      simp only [distBody₂, hi, if_false]
      rw [distribute_succ]
      simp only [hrun₁, bind, Except.bind]
      exact hrun₂
    have hmk₂' : ∀ j, j ∈ mk₂ ↔ j = i ∨ j ∈ mk ∨ j ∈ kids.labels := by
      intro j; rw [hmk₂ j, List.mem_cons, or_assoc]
    have hs_mk : ∀ j ∈ sibs.labels, j ∉ mk₂ := by
      intro j hj hjm
      rcases (hmk₂' j).1 hjm with rfl | h | h
      · exact his hj
      · exact hmk j (hmem_s j hj) h
      · exact hdis j h j hj rfl
    have hframe_cp : ∀ j, j ∉ kids.labels → st₂.cp j = st.cp j := by
      intro j hj
      rw [hfr₂ j hj, hfr₁ j (fun h => hj (RF.roots_subset _ _ h))]
    have hframe_sp : ∀ e : ℕ × ℕ, (e.1 ∉ i :: kids.labels ∨ e.2 ∉ i :: kids.labels) →
        st₂.sp e = st.sp e := by
      intro e he
      rw [hfs₂ e (he.imp (fun h h' => h (List.mem_cons_of_mem _ h'))
        (fun h h' => h (List.mem_cons_of_mem _ h'))), hfs₁ e]
      intro r hr
      have hr' := RF.roots_subset _ _ hr
      constructor
      · rintro rfl
        rcases he with h | h
        · exact h List.mem_cons_self
        · exact h (List.mem_cons_of_mem _ hr')
      · rintro rfl
        rcases he with h | h
        · exact h (List.mem_cons_of_mem _ hr')
        · exact h List.mem_cons_self
    obtain ⟨st₃, mk₃, hrun₃, hmk₃, hfin₃, hfr₃, hfs₃⟩ :=
      ihs (s := s) (l := l₂) (st := st₂) (mk := mk₂) (fuel := fuel + 1)
        (O := O ∪ (clq jt.cliques i ∪ kids.vars jt.cliques))
        (B := fun x => B x * (φ i x * kids.prodF φ x)) hfs (by omega)
        (filter_congr_marks hl₂ (fun a ha => (hmk₂' a).2 (Or.inr (Or.inl ha)))
          (fun a ha => hs_mk a (RF.roots_subset _ a ha))) hnds
        ((hmk₂' s).2 (Or.inr (Or.inl hs))) hs_mk
        (by
          refine hc3.congr ?_ ?_
          · intro j hj
            exact hframe_cp j (fun h => hdis j h j hj rfl)
          · intro e h1 h2
            apply hframe_sp
            left
            rw [List.mem_cons, not_or]
            exact ⟨fun h => his (h ▸ h1), fun h => hdis _ h _ h1 rfl⟩)
        hr3 (hsO.trans Finset.subset_union_left)
        (by rw [hU, RF.vars]; ac_rfl)
        (by
          intro a b h
          simp only
          rw [hB (fun v hv => h v ?_), hφ i (fun v hv => h v ?_),
            RF.prodF_dependsOn hφ kids (fun v hv => h v ?_)]
          · simp only [Finset.coe_union, Set.mem_union]; exact Or.inr (Or.inr hv)
          · simp only [Finset.coe_union, Set.mem_union]; exact Or.inr (Or.inl hv)
          · simp only [Finset.coe_union, Set.mem_union]; exact Or.inl hv)
        (fun x => by rw [hp x, RF.prodF]; ring)
    refine ⟨st₃, mk₃, ?_, ?_, ?_, ?_, ?_⟩
    · rw [List.foldlM_append, foldlM_skip (fun a ha => by simp [distBody₂, hl₁ a ha])]
      simp only [bind, Except.bind, List.foldlM_cons, hbody]
      exact hrun₃
    · intro j
      rw [hmk₃, hmk₂']
      simp only [RF.labels, List.mem_cons, List.mem_append]
      tauto
    · intro j hj
      simp only [RF.labels, List.mem_cons, List.mem_append] at hj
      rcases hj with rfl | hj | hj
      · rw [CRep, hfr₃ j his, hframe_cp j hik]; exact hc1
      · rw [CRep, hfr₃ j (fun h => hdis j hj j h rfl)]; exact hfin₂ j hj
      · exact hfin₃ j hj
    · intro j hj
      simp only [RF.labels, List.mem_cons, List.mem_append, not_or] at hj
      rw [hfr₃ j hj.2.2, hframe_cp j hj.2.1]
    · intro e he
      rw [hfs₃ e, hframe_sp e]
      · refine he.imp (fun h h' => h ?_) (fun h h' => h ?_) <;>
        · rcases List.mem_cons.1 h' with h' | h' <;> simp [RF.labels, h']
      · exact he.imp (fun h h' => h (hmem_s _ h')) (fun h h' => h (hmem_s _ h'))

/-- `propagate` on a tree that `f` describes as seen from `start`: every clique ends up with the
product of all potentials summed over the variables outside the clique. -/
theorem propagate_rep {dom : V → List S} (hd : ∀ v, (dom v).Nodup) {x₀ : V → S}
    (hx₀ : Valid dom x₀) {jt : JT V} {ord : ℕ → List ℕ} {φ : ℕ → (V → S) → K}
    (hφ : ∀ i, DependsOn (φ i) (clq jt.cliques i : Set V))
    (hpos : ∀ i x, Valid dom x → 0 ≤ φ i x) {r : ℕ} {f : RF} {st : PState V S K}
    (hroots : ord r = f.roots) (hfit : f.Fits jt ord r) (hnd : (r :: f.labels).Nodup)
    (hlen : f.labels.length < jt.cliques.length)
    (hrip : f.Rip jt.cliques r (clq jt.cliques r))
    (hst : ∀ i ∈ r :: f.labels, CRep dom jt st i (φ i))
    (hsp : ∀ e, SRep dom jt st e (fun _ => 1)) :
    ∃ st', propagate jt ord r st = .ok st' ∧
      ∀ i ∈ r :: f.labels, CRep dom jt st' i
        (sumF dom ((clq jt.cliques r ∪ f.vars jt.cliques) \ clq jt.cliques i)
          (fun x => φ r x * f.prodF φ x)) := by
  set U := clq jt.cliques r ∪ f.vars jt.cliques with hUdef
  set p := fun x => φ r x * f.prodF φ x with hpdef
  rw [List.nodup_cons] at hnd
  obtain ⟨n, hn⟩ : ∃ n, jt.cliques.length = n + 1 := ⟨jt.cliques.length - 1, by omega⟩
  have hfilter : (ord r).filter (· ∉ [r]) = f.roots := by
    rw [hroots, List.filter_eq_self]
    intro a ha
    have : a ≠ r := fun h => hnd.1 (h ▸ RF.roots_subset _ _ ha)
    simpa using this
  have hnotin : ∀ i ∈ f.labels, i ∉ [r] := by
    intro i hi h
    rw [List.mem_singleton] at h
    exact hnd.1 (h ▸ hi)
  obtain ⟨st₁, mk₁, hrun₁, -, hr₁, hcol₁, -, -⟩ :=
    collect_loop hd hx₀ (φ := φ) f (s := r) (l := ord r) (st := st) (mk := [r]) (fuel := n)
      (g := φ r) hfit (by omega) hfilter hnd.2 (by simp) hnotin (hst r List.mem_cons_self)
      (fun i hi => hst i (List.mem_cons_of_mem _ hi)) (fun e _ => hsp e)
  have hfinal_r : CRep dom jt st₁ r (final dom jt.cliques U p r) := by
    refine hr₁.congr fun x _ => ?_
    rw [RF.msgs_eq hφ hrip (Finset.Subset.refl _)]
    have hset : U \ clq jt.cliques r = f.vars jt.cliques \ clq jt.cliques r := by
      rw [hUdef, Finset.union_sdiff_distrib, Finset.sdiff_self, Finset.empty_union]
    rw [final, RF.sumF_congr' hset (fun _ => rfl),
      sumF_mul_left dom (hφ r) (fun v hv hv' => (Finset.mem_sdiff.1 hv).2 hv')]
  have hU : U = f.vars jt.cliques ∪ clq jt.cliques r := Finset.union_comm _ _
  have hp : ∀ x, p x = f.prodF φ x * φ r x := fun x => mul_comm _ _
  obtain ⟨st₂, hrun₂, hfin₂, hfr₂, hfs₂⟩ :=
    dist_loop₁ hd hx₀ hφ hpos f (s := r) (l := ord r) (st := st₁) (mk := [r]) hfit hfilter hnd.2
      (by simp) hnotin hfinal_r hcol₁ hrip (Finset.Subset.refl _) hU (hφ r) hp
  have hready := RF.ready_of_collected f.roots hnd.2 hnd.1 hcol₁ hfin₂ (fun _ _ h => h) hfr₂ hfs₂
  obtain ⟨st₃, mk₃, hrun₃, -, hfin₃, hfr₃, -⟩ :=
    dist_loop₂ hd hx₀ hφ hpos f (s := r) (l := ord r) (st := st₂) (mk := [r]) (fuel := n) hfit
      (by omega) hfilter hnd.2 (by simp) hnotin hready hrip (Finset.Subset.refl _) hU (hφ r) hp
  refine ⟨st₃, ?_, ?_⟩
  · unfold propagate
    rw [hn, collect_succ]
    simp only [hrun₁, bind, Except.bind, pure, Except.pure]
    rw [distribute_succ]
    simp only [bind, Except.bind, hrun₂, hrun₃]
  · intro i hi
    rcases List.mem_cons.1 hi with rfl | hi
    · rw [CRep, hfr₃ i hnd.1, hfr₂ i (fun h => hnd.1 (RF.roots_subset _ _ h))]
      exact hfinal_r
    · exact hfin₃ i hi

end
end Verif.BBN
