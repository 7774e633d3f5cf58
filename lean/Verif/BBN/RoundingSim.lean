import Verif.BBN.Rounding

/-!
# The rounded run follows the exact run
-/

namespace Verif.BBN

open Function

theorem mapM_rel {α β γ δ ε : Type} {R : α → β → Prop} {T : γ → δ → Prop} {f : α → Except ε γ} {g : β → Except ε δ}
    {l : List α} {l' : List β} (hl : List.Forall₂ R l l')
    (h : ∀ a ∈ l, ∀ b ∈ l', R a b → ∀ y, g b = .ok y → ∃ x, f a = .ok x ∧ T x y) {ys : List δ} (hy : l'.mapM g = .ok ys) :
    ∃ xs, l.mapM f = .ok xs ∧ List.Forall₂ T xs ys := by
  induction hl generalizing ys with
  | nil =>
    simp only [List.mapM_nil, pure, Except.pure, Except.ok.injEq] at hy
    subst hy
    exact ⟨[], rfl, .nil⟩
  | @cons a b l l' hab hl ih =>
    rw [List.mapM_cons] at hy
    cases hg : g b with
    | error e => rw [hg] at hy; simp [bind, Except.bind] at hy
    | ok y =>
      rw [hg] at hy
      cases hm : l'.mapM g with
      | error e => rw [hm] at hy; simp [bind, Except.bind] at hy
      | ok ys' =>
        rw [hm] at hy
        simp only [bind, Except.bind, pure, Except.pure, Except.ok.injEq] at hy
        subst hy
        obtain ⟨x, hx, hT⟩ := h a List.mem_cons_self b List.mem_cons_self hab y hg
        obtain ⟨xs, hxs, hTs⟩ := ih (fun a ha b hb => h a (List.mem_cons_of_mem _ ha) b (List.mem_cons_of_mem _ hb)) hm
        exact ⟨x :: xs, by rw [List.mapM_cons, hx, hxs]; rfl, .cons hT hTs⟩

section
variable {V S : Type} [LinearOrder V] [DecidableEq S] {u : ℚ} {rd : ℚ → ℚ}

/-- Tables with the same keys and close entries. -/
abbrev CloseTT (u : ℚ) (n : ℕ) (t : TT V S (Fl rd)) (t' : TT V S ℚ) : Prop :=
  List.Forall₂ (fun a b => a.1 = b.1 ∧ Close u n a.2.val b.2) t t'

omit [LinearOrder V] [DecidableEq S] in
theorem CloseTT.mono (h : Rounds u rd) {n m : ℕ} {t : TT V S (Fl rd)} {t' : TT V S ℚ} (c : CloseTT u n t t') (hnm : n ≤ m) :
    CloseTT u m t t' := c.imp fun _ _ hab => ⟨hab.1, hab.2.mono h hnm⟩

theorem CloseTT.addTo (h : Rounds u rd) {n m : ℕ} (hnm : n ≤ m) {t : TT V S (Fl rd)} {t' : TT V S ℚ} (c : CloseTT u m t t')
    (k : Key V S) {v : Fl rd} {v' : ℚ} (hv : Close u n v.val v') :
    CloseTT u (m + 1) (addTo t k v) (addTo t' k v') ∧ (addTo t' k v').length ≤ t'.length + 1 := by
  induction c with
  | nil =>
    refine ⟨.cons ⟨rfl, ?_⟩ .nil, by simp [Verif.BBN.addTo]⟩
    rw [Fl.add_val]
    exact Close.add h ((Close.refl le_rfl).mono h (Nat.zero_le m)) (hv.mono h hnm)
  | @cons a b t t' hab ht ih =>
    obtain ⟨k1, v1⟩ := a
    obtain ⟨k2, v2⟩ := b
    obtain ⟨hk, hc⟩ := hab
    simp only at hk hc
    subst hk
    simp only [Verif.BBN.addTo]
    by_cases hkk : k1 = k
    · rw [if_pos hkk, if_pos hkk]
      refine ⟨.cons ⟨rfl, ?_⟩ (CloseTT.mono h ht (Nat.le_succ m)), by simp⟩
      rw [Fl.add_val]
      exact hc.add h (hv.mono h hnm)
    · rw [if_neg hkk, if_neg hkk]
      exact ⟨.cons ⟨rfl, hc.mono h (Nat.le_succ m)⟩ ih.1, by simpa using ih.2⟩

theorem project_sim (h : Rounds u rd) {n : ℕ} {t : TT V S (Fl rd)} {t' : TT V S ℚ} (c : CloseTT u n t t') (X R : List V)
    {r' : TT V S ℚ} (hr : project t' X R = .ok r') :
    ∃ r, project t X R = .ok r ∧ CloseTT u (n + t'.length) r r' ∧ r'.length ≤ t'.length := by
  have gen : ∀ (acc : TT V S (Fl rd)) (acc' : TT V S ℚ) (m : ℕ), n ≤ m → CloseTT u m acc acc' →
      t'.foldlM (fun acc kv => do
        let e ← transform kv.1 X R
        return addTo acc e kv.2) acc' = (.ok r' : Except Err (TT V S ℚ)) →
      ∃ r, t.foldlM (fun acc kv => do
        let e ← transform kv.1 X R
        return addTo acc e kv.2) acc = (.ok r : Except Err (TT V S (Fl rd))) ∧ CloseTT u (m + t'.length) r r' ∧
        r'.length ≤ acc'.length + t'.length := by
    clear hr
    induction c with
    | nil =>
      intro acc acc' m hm hacc hr
      simp only [List.foldlM_nil, pure, Except.pure, Except.ok.injEq] at hr
      subst hr
      exact ⟨acc, rfl, by simpa using hacc, by simp⟩
    | @cons a b t t' hab ht ih =>
      intro acc acc' m hm hacc hr
      obtain ⟨k1, v1⟩ := a
      obtain ⟨k2, v2⟩ := b
      obtain ⟨hk, hc⟩ := hab
      simp only at hk hc
      subst hk
      rw [List.foldlM_cons] at hr ⊢
      cases he : transform k1 X R with
      | error e => simp [he, bind, Except.bind] at hr
      | ok e =>
        simp only [he, bind, Except.bind, pure, Except.pure] at hr ⊢
        obtain ⟨h1, h2⟩ := CloseTT.addTo h hm hacc e hc
        obtain ⟨r, hr1, hr2, hr3⟩ := ih (addTo acc e v1) (addTo acc' e v2) (m + 1) (by omega) h1 hr
        refine ⟨r, hr1, ?_, ?_⟩
        · refine hr2.mono h ?_
          simp only [List.length_cons]; omega
        · simp only [List.length_cons]; omega
  obtain ⟨r, h1, h2, h3⟩ := gen [] [] n le_rfl .nil hr
  exact ⟨r, h1, h2, by simpa using h3⟩

theorem lookup_sim {n : ℕ} {t : TT V S (Fl rd)} {t' : TT V S ℚ} (c : CloseTT u n t t') (k : Key V S) :
    (t.lookup k = none ∧ t'.lookup k = none) ∨
      ∃ v v', t.lookup k = some v ∧ t'.lookup k = some v' ∧ Close u n v.val v' := by
  induction c with
  | nil => exact Or.inl ⟨rfl, rfl⟩
  | @cons a b t t' hab ht ih =>
    obtain ⟨k1, v1⟩ := a
    obtain ⟨k2, v2⟩ := b
    obtain ⟨hk, hc⟩ := hab
    simp only at hk hc
    subst hk
    simp only [List.lookup_cons]
    by_cases hkk : k == k1
    · simp only [hkk]; exact Or.inr ⟨_, _, rfl, rfl, hc⟩
    · simp only [Bool.not_eq_true] at hkk; simp only [hkk]; exact ih

theorem absorb_sim (h : Rounds u rd) {n a b : ℕ} {t new old : TT V S (Fl rd)} {t' new' old' : TT V S ℚ} (c : CloseTT u n t t')
    (hn : CloseTT u a new new') (ho : CloseTT u b old old') (Y R : List V) {r' : TT V S ℚ}
    (hr : absorb t' Y R new' old' = .ok r') :
    ∃ r, absorb t Y R new old = .ok r ∧ CloseTT u (n + a + b + 2) r r' ∧ r'.length = t'.length := by
  have hlen : r'.length = t'.length := by
    unfold absorb at hr
    clear c
    induction t' generalizing r' with
    | nil =>
      simp only [List.mapM_nil, pure, Except.pure, Except.ok.injEq] at hr
      subst hr; rfl
    | cons kv t' ih =>
      rw [List.mapM_cons] at hr
      cases hg : absorbEntry Y R new' old' kv with
      | error e => rw [hg] at hr; simp [bind, Except.bind] at hr
      | ok y =>
        rw [hg] at hr
        cases hm : t'.mapM (absorbEntry Y R new' old') with
        | error e => rw [hm] at hr; simp [bind, Except.bind] at hr
        | ok ys =>
          rw [hm] at hr
          simp only [bind, Except.bind, pure, Except.pure, Except.ok.injEq] at hr
          subst hr
          simp [ih hm]
  unfold absorb at hr ⊢
  have key : ∀ a' ∈ t, ∀ b' ∈ t', (a'.1 = b'.1 ∧ Close u n a'.2.val b'.2) → ∀ y, absorbEntry Y R new' old' b' = .ok y →
      ∃ x, absorbEntry Y R new old a' = .ok x ∧ x.1 = y.1 ∧ Close u (n + a + b + 2) x.2.val y.2 := by
    rintro ⟨k1, v1⟩ - ⟨k2, v2⟩ - ⟨hk, hc⟩ y hy
    simp only at hk hc
    subst hk
    unfold absorbEntry at hy ⊢
    cases he : transform k1 Y R with
    | error e => simp [he, bind, Except.bind] at hy
    | ok e =>
      simp only [he, bind, Except.bind, pure, Except.pure] at hy ⊢
      by_cases h0 : v2 = 0
      · have h0' : v1 = 0 := Fl.ext ((hc.eq_zero_iff h).2 h0)
        rw [if_pos h0] at hy
        rw [if_pos h0']
        simp only [Except.ok.injEq] at hy
        subst hy
        exact ⟨_, rfl, rfl, (Close.refl (u := u) le_rfl).mono h (Nat.zero_le _)⟩
      · have h0' : v1 ≠ 0 := fun hv => h0 ((hc.eq_zero_iff h).1 (by rw [hv]; rfl))
        rw [if_neg h0] at hy
        rw [if_neg h0']
        rcases lookup_sim ho e with ⟨ho1, ho2⟩ | ⟨o, o', ho1, ho2, hoc⟩
        · simp [ho2] at hy
        · simp only [ho2] at hy
          simp only [ho1]
          by_cases hz : o' = 0
          · simp [hz] at hy
          · have hz' : o ≠ 0 := fun hv => hz ((hoc.eq_zero_iff h).1 (by rw [hv]; rfl))
            rw [if_neg hz] at hy
            rw [if_neg hz']
            simp only [Except.ok.injEq] at hy
            subst hy
            refine ⟨_, rfl, rfl, ?_⟩
            have hnew : Close u a ((new.lookup e).getD 0).val ((new'.lookup e).getD 0) := by
              rcases lookup_sim hn e with ⟨hn1, hn2⟩ | ⟨w, w', hn1, hn2, hwc⟩
              · rw [hn1, hn2]; exact (Close.refl (u := u) le_rfl).mono h (Nat.zero_le _)
              · rw [hn1, hn2]; exact hwc
            have := hc.mul h (hnew.div h hoc)
            rw [Fl.mul_val, Fl.div_val]
            exact this.mono h (by omega)
  obtain ⟨r, h1, h2⟩ := mapM_rel c (T := fun (a' : Key V S × Fl rd) (b' : Key V S × ℚ) => a'.1 = b'.1 ∧ Close u (n + a + b + 2) a'.2.val b'.2) key hr
  exact ⟨r, h1, h2, hlen⟩

/-! ### Messages -/

/-- The potentials of the two runs; `c` and `s` bound the number of roundings in the tables of cliques and separators. -/
structure Sim (u : ℚ) (L : ℕ) (c : ℕ → ℕ) (s : ℕ × ℕ → ℕ) (F : PState V S (Fl rd)) (Q : PState V S ℚ) : Prop where
  cp : ∀ i, CloseTT u (c i) (F.cp i) (Q.cp i)
  sp : ∀ e, CloseTT u (s e) (F.sp e) (Q.sp e)
  len : ∀ i, (Q.cp i).length ≤ L

theorem passMessage_sim (h : Rounds u rd) {L : ℕ} {c : ℕ → ℕ} {s : ℕ × ℕ → ℕ} {F : PState V S (Fl rd)} {Q : PState V S ℚ}
    (hs : Sim u L c s F Q) {jt : JT V} {i j : ℕ} {Q' : PState V S ℚ} (hq : passMessage jt Q i j = .ok Q') :
    ∃ F' e, passMessage jt F i j = .ok F' ∧ edgeOf jt i j = some e ∧
      Sim u L (update c j (c j + (c i + L) + s e + 2)) (update s e (c i + L)) F' Q' := by
  unfold passMessage at hq ⊢
  unfold edgeOf
  cases he : jt.edges.find? (fun e => e = (i, j) ∨ e = (j, i)) with
  | none => rw [he] at hq; cases hq
  | some e =>
    rw [he] at hq
    simp only [bind, Except.bind] at hq ⊢
    cases hp : project (Q.cp i) (names (clq jt.cliques i)) (names (label jt.cliques e)) with
    | error err => rw [hp] at hq; simp at hq
    | ok new' =>
      obtain ⟨new, hnew, hcl, hlen⟩ := project_sim h (hs.cp i) _ _ hp
      rw [hp] at hq
      rw [hnew]
      simp only at hq ⊢
      cases ha : absorb (Q.cp j) (names (clq jt.cliques j)) (names (label jt.cliques e)) new' (Q.sp e) with
      | error err => rw [ha] at hq; simp at hq
      | ok t' =>
        have hcl' : CloseTT u (c i + L) new new' := hcl.mono h (by have := hs.len i; omega)
        obtain ⟨t, ht, htc, htl⟩ := absorb_sim h (hs.cp j) hcl' (hs.sp e) _ _ ha
        rw [ha] at hq
        rw [ht]
        simp only [pure, Except.pure, Except.ok.injEq] at hq ⊢
        subst hq
        refine ⟨_, e, rfl, rfl, ?_, ?_, ?_⟩
        · intro k
          by_cases hk : k = j
          · subst hk; simp only [update_self]; exact htc
          · simp only [update_of_ne hk]; exact hs.cp k
        · intro k
          by_cases hk : k = e
          · subst hk; simp only [update_self]; exact hcl'
          · simp only [update_of_ne hk]; exact hs.sp k
        · intro k
          by_cases hk : k = j
          · subst hk; simp only [update_self]; rw [htl]; exact hs.len k
          · simp only [update_of_ne hk]; exact hs.len k

/-! ### Collect -/

theorem foldlM_append_ok {σ α ε : Type} {b : σ → α → Except ε σ} {l₁ l₂ : List α} {a : α} {st st' : σ}
    (hskip : ∀ a ∈ l₁, b st a = .ok st) (h : (l₁ ++ a :: l₂).foldlM b st = .ok st') :
    ∃ st₁, b st a = .ok st₁ ∧ l₂.foldlM b st₁ = .ok st' := by
  rw [List.foldlM_append, foldlM_skip hskip] at h
  simp only [bind, Except.bind, List.foldlM_cons] at h
  cases hb : b st a with
  | error e => rw [hb] at h; cases h
  | ok st₁ => rw [hb] at h; exact ⟨st₁, rfl, h⟩

/-- A bound on the roundings of the messages of a forest of cliques. -/
def RF.work (A L : ℕ) (f : RF) : ℕ := f.labels.length * (A + L + 2)

theorem RF.work_cons (A L i : ℕ) (kids sibs : RF) :
    (RF.cons i kids sibs).work A L = kids.work A L + sibs.work A L + (A + L + 2) := by
  simp only [RF.work, RF.labels, List.length_cons, List.length_append]; ring

theorem collect_sim (h : Rounds u rd) {jt : JT V} {ord : ℕ → List ℕ} {A L : ℕ} (f : RF) :
    ∀ {s : ℕ} {l : List ℕ} {F : PState V S (Fl rd)} {Q Q' : PState V S ℚ} {mk mk' : List ℕ} {fuel : ℕ} {c : ℕ → ℕ}
      {sl : ℕ × ℕ → ℕ},
    f.Fits jt ord s → f.labels.length ≤ fuel → l.filter (· ∉ mk) = f.roots → f.labels.Nodup →
    s ∈ mk → (∀ i ∈ f.labels, i ∉ mk) → Sim u L c sl F Q → (∀ i ∈ f.labels, c i ≤ A) →
    (∀ e : ℕ × ℕ, f.Touch s e → sl e = 0) →
    l.foldlM (collectBody jt ord fuel s) (Q, mk) = .ok (Q', mk') →
    ∃ F' c' sl', l.foldlM (collectBody jt ord fuel s) (F, mk) = .ok (F', mk') ∧ Sim u L c' sl' F' Q' ∧
      (∀ j, j ∈ mk' ↔ j ∈ mk ∨ j ∈ f.labels) ∧
      c' s ≤ c s + f.work A L ∧ (∀ j ∈ f.labels, c' j ≤ f.work A L) ∧ (∀ e : ℕ × ℕ, f.Touch s e → sl' e ≤ f.work A L) ∧
      (∀ j, j ∉ f.labels → j ≠ s → c' j = c j) ∧ (∀ e : ℕ × ℕ, ¬ f.Touch s e → sl' e = sl e) := by
  induction f with
  | nil =>
    intro s l F Q Q' mk mk' fuel c sl _ _ hl _ _ _ hsim _ _ hrun
    have hin : ∀ a ∈ l, a ∈ mk := by
      intro a ha
      by_contra hn
      have : a ∈ l.filter (· ∉ mk) := List.mem_filter.2 ⟨ha, by simpa using hn⟩
      rw [hl] at this
      simp [RF.roots] at this
    rw [foldlM_skip (fun a ha => by simp [collectBody, hin a ha])] at hrun
    simp only [Except.ok.injEq, Prod.mk.injEq] at hrun
    obtain ⟨rfl, rfl⟩ := hrun
    refine ⟨F, c, sl, foldlM_skip (fun a ha => by simp [collectBody, hin a ha]), hsim, by simp [RF.labels], by simp,
      by simp [RF.labels], ?_, fun _ _ _ => rfl, fun _ _ => rfl⟩
    rintro e (⟨h1, -⟩ | ⟨h1, -⟩) <;> simp [RF.labels] at h1
  | cons i kids sibs ihk ihs =>
    intro s l F Q Q' mk mk' fuel c sl hfit hfuel hl hnd hs hmk hsim hA hsl0 hrun
    obtain ⟨hadj, hroots, hfk, hfs⟩ := hfit
    obtain ⟨l₁, l₂, rfl, hl₁, hi, hl₂⟩ := split_filter hl
    have hnd' := hnd
    simp only [RF.labels, List.nodup_cons, List.mem_append, not_or, List.nodup_append] at hnd'
    obtain ⟨⟨hik, his⟩, hndk, hnds, hdis⟩ := hnd'
    obtain ⟨fuel, rfl⟩ : ∃ k, fuel = k + 1 := by
      cases fuel with
      | zero => simp [RF.labels] at hfuel
      | succ k => exact ⟨k, rfl⟩
    simp only [RF.labels, List.length_cons, List.length_append] at hfuel
    have hsi : s ≠ i := fun h => hi (h ▸ hs)
    have hmem_k : ∀ j ∈ kids.labels, j ∈ (RF.cons i kids sibs).labels := by
      intro j hj; simp [RF.labels, hj]
    have hmem_s : ∀ j ∈ sibs.labels, j ∈ (RF.cons i kids sibs).labels := by
      intro j hj; simp [RF.labels, hj]
    have hmem_i : i ∈ (RF.cons i kids sibs).labels := by simp [RF.labels]
    have hk_mk : ∀ j ∈ kids.labels, j ∉ i :: mk := by
      intro j hj
      rw [List.mem_cons, not_or]
      exact ⟨fun h => hik (h ▸ hj), hmk j (hmem_k j hj)⟩
    have hordi : (ord i).filter (· ∉ i :: mk) = kids.roots := by
      have h1 : (ord i).filter (· ∉ [s]) = kids.roots := by
        rw [← hroots]; apply List.filter_congr; intro a _; simp
      exact filter_congr_marks h1 (by simpa using Or.inr hs)
        (fun a ha => hk_mk a (RF.roots_subset _ a ha))
    have hsl : s ∉ (RF.cons i kids sibs).labels := fun h => hmk s h hs
    have hskl : s ∉ kids.labels := fun h => hmk s (hmem_k s h) hs
    have hssl : s ∉ sibs.labels := fun h => hmk s (hmem_s s h) hs
    -- the exact run
    obtain ⟨⟨Q₂, mk₂⟩, hbody, hrest⟩ := foldlM_append_ok (fun a ha => by simp [collectBody, hl₁ a ha]) hrun
    simp only [collectBody, hi, if_false] at hbody
    rw [collect_succ] at hbody
    cases hr1 : (ord i).foldlM (collectBody jt ord fuel i) (Q, i :: mk) with
    | error e => simp [hr1, bind, Except.bind] at hbody
    | ok st =>
      obtain ⟨Q₁, mk₁⟩ := st
      rw [hr1] at hbody
      simp only [bind, Except.bind] at hbody
      cases hpm : passMessage jt Q₁ i s with
      | error e => simp [hpm] at hbody
      | ok P =>
        rw [hpm] at hbody
        simp only [pure, Except.pure, Except.ok.injEq, Prod.mk.injEq] at hbody
        obtain ⟨rfl, rfl⟩ := hbody
        -- the rounded run
        obtain ⟨F₁, c₁, sl₁, hF₁, hsim₁, hmk₁, hci, hck, hske, hcf, hsf⟩ :=
          ihk (s := i) (l := ord i) (F := F) (mk := i :: mk) (fuel := fuel) (c := c) (sl := sl) hfk (by omega) hordi hndk
            List.mem_cons_self hk_mk hsim (fun j hj => hA j (hmem_k j hj)) (fun e he => hsl0 e he.kids) hr1
        obtain ⟨F₂, e, hF₂, he, hsim₂⟩ := passMessage_sim h hsim₁ hpm
        have heq := (edgeOf_some he).1
        have hbodyF : collectBody jt ord (fuel + 1) s (F, mk) i = .ok (F₂, mk₁) := by
          simp only [collectBody, hi, if_false]
          rw [collect_succ]
          simp only [hF₁, bind, Except.bind, hF₂]
          rfl
        have hmk₁' : ∀ j, j ∈ mk₁ ↔ j = i ∨ j ∈ mk ∨ j ∈ kids.labels := by
          intro j; rw [hmk₁ j, List.mem_cons, or_assoc]
        have hs_mk : ∀ j ∈ sibs.labels, j ∉ mk₁ := by
          intro j hj hjm
          rcases (hmk₁' j).1 hjm with rfl | h | h
          · exact his hj
          · exact hmk j (hmem_s j hj) h
          · exact hdis j h j hj rfl
        have hse : sl₁ e = 0 := by
          rw [hsf e (fun h => RF.Touch.not_root_kids hnd hsl heq.symm h)]
          exact hsl0 e (.root heq.symm)
        have hcs : c₁ s = c s := hcf s hskl hsi
        have hci' : c₁ i ≤ A + kids.work A L := le_trans hci (Nat.add_le_add_right (hA i hmem_i) _)
        obtain ⟨F₃, c₃, sl₃, hF₃, hsim₃, hmk₃, hc3s, hc3l, hs3, hc3f, hs3f⟩ :=
          ihs (s := s) (l := l₂) (F := F₂) (mk := mk₁) (fuel := fuel + 1) hfs (by omega)
            (filter_congr_marks hl₂ (fun a ha => (hmk₁' a).2 (Or.inr (Or.inl ha)))
              (fun a ha => hs_mk a (RF.roots_subset _ a ha))) hnds
            ((hmk₁' s).2 (Or.inr (Or.inl hs))) hs_mk hsim₂
            (by
              intro j hj
              have hjs : j ≠ s := fun h => hssl (h ▸ hj)
              have hji : j ≠ i := fun h => his (h ▸ hj)
              have hjk : j ∉ kids.labels := fun h => hdis j h j hj rfl
              rw [update_of_ne hjs, hcf j hjk hji]
              exact hA j (hmem_s j hj))
            (by
              intro e' he'
              have hne : e' ≠ e := fun h => RF.Touch.not_root_sibs hnd hsl heq.symm (h ▸ he')
              rw [update_of_ne hne, hsf e' (fun h => RF.Touch.not_kids_sibs hnd hsl h he')]
              exact hsl0 e' he'.sibs) hrest
        rw [update_self] at hc3s
        have hW := RF.work_cons A L i kids sibs
        refine ⟨F₃, c₃, sl₃, ?_, hsim₃, ?_, ?_, ?_, ?_, ?_, ?_⟩
        · rw [List.foldlM_append, foldlM_skip (fun a ha => by simp [collectBody, hl₁ a ha])]
          simp only [bind, Except.bind, List.foldlM_cons, hbodyF]
          exact hF₃
        · intro j
          rw [hmk₃, hmk₁']
          simp only [RF.labels, List.mem_cons, List.mem_append]
          tauto
        · omega
        · intro j hj
          simp only [RF.labels, List.mem_cons, List.mem_append] at hj
          rcases hj with rfl | hj | hj
          · rw [hc3f j his hsi.symm, update_of_ne hsi.symm]; omega
          · have hjs : j ≠ s := fun h => hskl (h ▸ hj)
            rw [hc3f j (fun h => hdis j hj j h rfl) hjs, update_of_ne hjs]
            have := hck j hj
            omega
          · have := hc3l j hj
            omega
        · intro e' he'
          by_cases h1 : sibs.Touch s e'
          · have := hs3 e' h1; omega
          · rw [hs3f e' h1]
            by_cases h2 : e' = e
            · rw [h2, update_self]; omega
            · rw [update_of_ne h2]
              by_cases h3 : kids.Touch i e'
              · have := hske e' h3; omega
              · rw [hsf e' h3, hsl0 e' he']; omega
        · intro j hj hjs
          simp only [RF.labels, List.mem_cons, List.mem_append, not_or] at hj
          rw [hc3f j hj.2.2 hjs, update_of_ne hjs, hcf j hj.2.1 hj.1]
        · intro e' he'
          have hne : e' ≠ e := by
            rintro rfl
            exact he' (.root heq.symm)
          rw [hs3f e' (fun h => he' h.sibs), update_of_ne hne, hsf e' (fun h => he' h.kids)]

/-! ### Distribute -/

theorem dist_sim₁ (h : Rounds u rd) {jt : JT V} {ord : ℕ → List ℕ} {R D L : ℕ} (f : RF) :
    ∀ {s : ℕ} {l : List ℕ} {F : PState V S (Fl rd)} {Q Q' : PState V S ℚ} {mk mk' : List ℕ} {c : ℕ → ℕ} {sl : ℕ × ℕ → ℕ},
    f.Fits jt ord s → l.filter (· ∉ mk) = f.roots → f.labels.Nodup →
    s ∈ mk → (∀ i ∈ f.labels, i ∉ mk) → Sim u L c sl F Q → c s ≤ D → (∀ i ∈ f.labels, c i ≤ R) →
    (∀ e : ℕ × ℕ, f.Touch s e → sl e ≤ R) →
    l.foldlM (distBody₁ jt s) (Q, mk) = .ok (Q', mk') →
    ∃ F' c' sl', l.foldlM (distBody₁ jt s) (F, mk) = .ok (F', mk') ∧ Sim u L c' sl' F' Q' ∧ mk' = mk ∧
      (∀ i ∈ f.roots, c' i ≤ D + (2 * R + L + 2)) ∧ (∀ j, j ∉ f.roots → c' j = c j) ∧
      (∀ e : ℕ × ℕ, (∀ i ∈ f.roots, e ≠ (s, i) ∧ e ≠ (i, s)) → sl' e = sl e) := by
  induction f with
  | nil =>
    intro s l F Q Q' mk mk' c sl _ hl _ _ _ hsim _ _ _ hrun
    have hin : ∀ a ∈ l, a ∈ mk := by
      intro a ha
      by_contra hn
      have : a ∈ l.filter (· ∉ mk) := List.mem_filter.2 ⟨ha, by simpa using hn⟩
      rw [hl] at this
      simp [RF.roots] at this
    rw [foldlM_skip (fun a ha => by simp [distBody₁, hin a ha])] at hrun
    simp only [Except.ok.injEq, Prod.mk.injEq] at hrun
    obtain ⟨rfl, rfl⟩ := hrun
    exact ⟨F, c, sl, foldlM_skip (fun a ha => by simp [distBody₁, hin a ha]), hsim, rfl, by simp [RF.roots], fun _ _ => rfl,
      fun _ _ => rfl⟩
  | cons i kids sibs _ ihs =>
    intro s l F Q Q' mk mk' c sl hfit hl hnd hs hmk hsim hD hR hsR hrun
    obtain ⟨hadj, hroots, hfk, hfs⟩ := hfit
    obtain ⟨l₁, l₂, rfl, hl₁, hi, hl₂⟩ := split_filter hl
    have hnd' := hnd
    simp only [RF.labels, List.nodup_cons, List.mem_append, not_or, List.nodup_append] at hnd'
    obtain ⟨⟨hik, his⟩, hndk, hnds, hdis⟩ := hnd'
    have hsi : s ≠ i := fun h => hi (h ▸ hs)
    have hsl : s ∉ (RF.cons i kids sibs).labels := fun h => hmk s h hs
    have hmem_s : ∀ j ∈ sibs.labels, j ∈ (RF.cons i kids sibs).labels := by
      intro j hj; simp [RF.labels, hj]
    have hmem_i : i ∈ (RF.cons i kids sibs).labels := by simp [RF.labels]
    obtain ⟨⟨Q₂, mk₂⟩, hbody, hrest⟩ := foldlM_append_ok (fun a ha => by simp [distBody₁, hl₁ a ha]) hrun
    simp only [distBody₁, hi, if_false, bind, Except.bind] at hbody
    cases hpm : passMessage jt Q s i with
    | error e => simp [hpm] at hbody
    | ok P =>
      rw [hpm] at hbody
      simp only [pure, Except.pure, Except.ok.injEq, Prod.mk.injEq] at hbody
      obtain ⟨rfl, rfl⟩ := hbody
      obtain ⟨F₂, e, hF₂, he, hsim₂⟩ := passMessage_sim h hsim hpm
      have heq := (edgeOf_some he).1
      have hbodyF : distBody₁ jt s (F, mk) i = .ok (F₂, mk) := by
        simp only [distBody₁, hi, if_false, hF₂]
        rfl
      have hse : sl e ≤ R := hsR e (.root heq)
      have hci : c i ≤ R := hR i hmem_i
      obtain ⟨F₃, c₃, sl₃, hF₃, hsim₃, hmk₃, hr₃, hcf₃, hsf₃⟩ :=
        ihs (s := s) (l := l₂) (F := F₂) (mk := mk) hfs hl₂ hnds hs (fun j hj => hmk j (hmem_s j hj)) hsim₂
          (by rw [update_of_ne hsi]; exact hD)
          (by
            intro j hj
            rw [update_of_ne (show j ≠ i from fun h => his (h ▸ hj))]
            exact hR j (hmem_s j hj))
          (by
            intro e' he'
            have hne : e' ≠ e := fun h => RF.Touch.not_root_sibs hnd hsl heq (h ▸ he')
            rw [update_of_ne hne]
            exact hsR e' he'.sibs) hrest
      have hir : i ∉ sibs.roots := fun h => his (RF.roots_subset _ _ h)
      refine ⟨F₃, c₃, sl₃, ?_, hsim₃, hmk₃, ?_, ?_, ?_⟩
      · rw [List.foldlM_append, foldlM_skip (fun a ha => by simp [distBody₁, hl₁ a ha])]
        simp only [bind, Except.bind, List.foldlM_cons, hbodyF]
        exact hF₃
      · intro j hj
        rcases List.mem_cons.1 hj with rfl | hj
        · rw [hcf₃ j hir, update_self]; omega
        · exact hr₃ j hj
      · intro j hj
        simp only [RF.roots, List.mem_cons, not_or] at hj
        rw [hcf₃ j hj.2, update_of_ne hj.1]
      · intro e' he'
        have h0 := he' i (by simp [RF.roots])
        have hne : e' ≠ e := by
          rintro rfl
          rcases heq with h | h
          · exact h0.1 h
          · exact h0.2 h
        rw [hsf₃ e' (fun j hj => he' j (by simp [RF.roots, hj])), update_of_ne hne]

/-- Bounds between the two loops: roots have received their message, everything below is as collected. -/
def RF.LReady (R D : ℕ) (c : ℕ → ℕ) (sl : ℕ × ℕ → ℕ) : RF → Prop
  | .nil => True
  | .cons i kids sibs =>
    c i ≤ D ∧ (∀ j ∈ kids.labels, c j ≤ R) ∧ (∀ e : ℕ × ℕ, kids.Touch i e → sl e ≤ R) ∧ sibs.LReady R D c sl

theorem RF.LReady.congr {R D : ℕ} {c c' : ℕ → ℕ} {sl sl' : ℕ × ℕ → ℕ} {f : RF} (h : f.LReady R D c sl)
    (hc : ∀ j ∈ f.labels, c' j = c j) (hs : ∀ e : ℕ × ℕ, e.1 ∈ f.labels → e.2 ∈ f.labels → sl' e = sl e) :
    f.LReady R D c' sl' := by
  induction f with
  | nil => trivial
  | cons i kids sibs _ ihs =>
    obtain ⟨h1, h2, h3, h4⟩ := h
    refine ⟨?_, ?_, ?_, ihs h4 ?_ ?_⟩
    · rw [hc i (by simp [labels])]; exact h1
    · intro j hj; rw [hc j (by simp [labels, hj])]; exact h2 j hj
    · intro e he
      rw [hs e]
      · exact h3 e he
      · rcases he with ⟨h5, h6 | h6⟩ | ⟨h5, h6 | h6⟩ <;> simp [labels, h5, h6]
      · rcases he with ⟨h5, h6 | h6⟩ | ⟨h5, h6 | h6⟩ <;> simp [labels, h5, h6]
    · intro j hj; exact hc j (by simp [labels, hj])
    · intro e h5 h6; exact hs e (by simp [labels, h5]) (by simp [labels, h6])

theorem RF.lready_of {R D : ℕ} {s : ℕ} (rs : List ℕ) {c c' : ℕ → ℕ} {sl sl' : ℕ × ℕ → ℕ} {f : RF}
    (hnd : f.labels.Nodup) (hs : s ∉ f.labels) (hcR : ∀ i ∈ f.labels, c i ≤ R) (hsR : ∀ e : ℕ × ℕ, f.Touch s e → sl e ≤ R)
    (hr : ∀ i ∈ rs, c' i ≤ D) (hsub : ∀ i, i ∈ f.roots → i ∈ rs) (hrs : ∀ i ∈ rs, i ∈ f.labels → i ∈ f.roots)
    (hc : ∀ j, j ∉ rs → c' j = c j)
    (hsp : ∀ e : ℕ × ℕ, (∀ i ∈ rs, e ≠ (s, i) ∧ e ≠ (i, s)) → sl' e = sl e) : f.LReady R D c' sl' := by
  induction f with
  | nil => trivial
  | cons i kids sibs _ ihs =>
    have hnd' := hnd
    simp only [RF.labels, List.nodup_cons, List.mem_append, not_or, List.nodup_append] at hnd'
    obtain ⟨⟨hik, his⟩, hndk, hnds, hdis⟩ := hnd'
    have hskl : s ∉ kids.labels := fun h => hs (by simp [labels, h])
    have hsi : s ≠ i := fun h => hs (by simp [labels, h])
    have hkr : ∀ j ∈ kids.labels, j ∉ rs := by
      intro j hj hjr
      have := hrs j hjr (by simp [labels, hj])
      simp only [roots, List.mem_cons] at this
      rcases this with rfl | h
      · exact hik hj
      · exact hdis j hj j (roots_subset _ _ h) rfl
    refine ⟨hr i (hsub i (by simp [roots])), ?_, ?_, ihs hnds (fun h => hs (by simp [labels, h])) ?_ ?_ ?_ ?_⟩
    · intro j hj
      rw [hc j (hkr j hj)]
      exact hcR j (by simp [labels, hj])
    · intro e he
      rw [hsp e]
      · exact hsR e he.kids
      · intro r hr'
        constructor
        · rintro rfl
          rcases he with ⟨h5, -⟩ | ⟨h5, h6⟩
          · exact hskl h5
          · exact hkr _ h5 hr'
        · rintro rfl
          rcases he with ⟨h5, -⟩ | ⟨h5, h6⟩
          · exact hkr _ h5 hr'
          · exact hskl h5
    · intro j hj; exact hcR j (by simp [labels, hj])
    · intro e he; exact hsR e he.sibs
    · intro j hj; exact hsub j (by simp [roots, hj])
    · intro j hj hjl
      have := hrs j hj (by simp [labels, hjl])
      simp only [roots, List.mem_cons] at this
      rcases this with rfl | h
      · exact absurd hjl his
      · exact h

theorem dist_sim₂ (h : Rounds u rd) {jt : JT V} {ord : ℕ → List ℕ} {R L : ℕ} (f : RF) :
    ∀ {s : ℕ} {l : List ℕ} {F : PState V S (Fl rd)} {Q Q' : PState V S ℚ} {mk mk' : List ℕ} {fuel D : ℕ} {c : ℕ → ℕ}
      {sl : ℕ × ℕ → ℕ},
    f.Fits jt ord s → f.labels.length ≤ fuel → l.filter (· ∉ mk) = f.roots → f.labels.Nodup →
    s ∈ mk → (∀ i ∈ f.labels, i ∉ mk) → Sim u L c sl F Q → f.LReady R D c sl →
    l.foldlM (distBody₂ jt ord fuel) (Q, mk) = .ok (Q', mk') →
    ∃ F' c' sl', l.foldlM (distBody₂ jt ord fuel) (F, mk) = .ok (F', mk') ∧ Sim u L c' sl' F' Q' ∧
      (∀ j, j ∈ mk' ↔ j ∈ mk ∨ j ∈ f.labels) ∧
      (∀ i ∈ f.labels, c' i ≤ D + f.labels.length * (2 * R + L + 2)) ∧ (∀ j, j ∉ f.labels → c' j = c j) ∧
      (∀ e : ℕ × ℕ, (e.1 ∉ f.labels ∨ e.2 ∉ f.labels) → sl' e = sl e) := by
  induction f with
  | nil =>
    intro s l F Q Q' mk mk' fuel D c sl _ _ hl _ _ _ hsim _ hrun
    have hin : ∀ a ∈ l, a ∈ mk := by
      intro a ha
      by_contra hn
      have : a ∈ l.filter (· ∉ mk) := List.mem_filter.2 ⟨ha, by simpa using hn⟩
      rw [hl] at this
      simp [RF.roots] at this
    rw [foldlM_skip (fun a ha => by simp [distBody₂, hin a ha])] at hrun
    simp only [Except.ok.injEq, Prod.mk.injEq] at hrun
    obtain ⟨rfl, rfl⟩ := hrun
    exact ⟨F, c, sl, foldlM_skip (fun a ha => by simp [distBody₂, hin a ha]), hsim, by simp [RF.labels], by simp [RF.labels],
      fun _ _ => rfl, fun _ _ => rfl⟩
  | cons i kids sibs ihk ihs =>
    intro s l F Q Q' mk mk' fuel D c sl hfit hfuel hl hnd hs hmk hsim hready hrun
    obtain ⟨hadj, hroots, hfk, hfs⟩ := hfit
    obtain ⟨hcD, hcR, hsR, hready'⟩ := hready
    obtain ⟨l₁, l₂, rfl, hl₁, hi, hl₂⟩ := split_filter hl
    have hnd' := hnd
    simp only [RF.labels, List.nodup_cons, List.mem_append, not_or, List.nodup_append] at hnd'
    obtain ⟨⟨hik, his⟩, hndk, hnds, hdis⟩ := hnd'
    obtain ⟨fuel, rfl⟩ : ∃ k, fuel = k + 1 := by
      cases fuel with
      | zero => simp [RF.labels] at hfuel
      | succ k => exact ⟨k, rfl⟩
    simp only [RF.labels, List.length_cons, List.length_append] at hfuel
    have hmem_k : ∀ j ∈ kids.labels, j ∈ (RF.cons i kids sibs).labels := by
      intro j hj; simp [RF.labels, hj]
    have hmem_s : ∀ j ∈ sibs.labels, j ∈ (RF.cons i kids sibs).labels := by
      intro j hj; simp [RF.labels, hj]
    have hk_mk : ∀ j ∈ kids.labels, j ∉ i :: mk := by
      intro j hj
      rw [List.mem_cons, not_or]
      exact ⟨fun h => hik (h ▸ hj), hmk j (hmem_k j hj)⟩
    have hordi : (ord i).filter (· ∉ i :: mk) = kids.roots := by
      have h1 : (ord i).filter (· ∉ [s]) = kids.roots := by
        rw [← hroots]; apply List.filter_congr; intro a _; simp
      exact filter_congr_marks h1 (by simpa using Or.inr hs)
        (fun a ha => hk_mk a (RF.roots_subset _ a ha))
    obtain ⟨⟨Q₂, mk₂⟩, hbody, hrest⟩ := foldlM_append_ok (fun a ha => by simp [distBody₂, hl₁ a ha]) hrun
    simp only [distBody₂, hi, if_false] at hbody
    rw [distribute_succ] at hbody
    cases hr1 : (ord i).foldlM (distBody₁ jt i) (Q, i :: mk) with
    | error e => simp [hr1, bind, Except.bind] at hbody
    | ok st =>
      obtain ⟨Q₁, mk₁⟩ := st
      rw [hr1] at hbody
      simp only [bind, Except.bind] at hbody
      obtain ⟨F₁, c₁, sl₁, hF₁, hsim₁, hmk₁, hroot₁, hcf₁, hsf₁⟩ :=
        dist_sim₁ h kids (s := i) (l := ord i) (F := F) (mk := i :: mk) (D := D) (R := R) hfk hordi hndk
          List.mem_cons_self hk_mk hsim hcD hcR hsR hr1
      subst hmk₁
      have hready₁ : kids.LReady R (D + (2 * R + L + 2)) c₁ sl₁ :=
        RF.lready_of kids.roots hndk hik hcR hsR hroot₁ (fun _ h => h) (fun _ h _ => h) hcf₁ hsf₁
      obtain ⟨F₂, c₂, sl₂, hF₂, hsim₂, hmk₂, hcl₂, hcf₂, hsf₂⟩ :=
        ihk (s := i) (l := ord i) (F := F₁) (mk := i :: mk) (fuel := fuel) hfk (by omega) hordi hndk List.mem_cons_self
          hk_mk hsim₁ hready₁ hbody
      have hbodyF : distBody₂ jt ord (fuel + 1) (F, mk) i = .ok (F₂, mk₂) := by
        simp only [distBody₂, hi, if_false]
        rw [distribute_succ]
        simp only [hF₁, bind, Except.bind]
        exact hF₂
      have hmk₂' : ∀ j, j ∈ mk₂ ↔ j = i ∨ j ∈ mk ∨ j ∈ kids.labels := by
        intro j; rw [hmk₂ j, List.mem_cons, or_assoc]
      have hs_mk : ∀ j ∈ sibs.labels, j ∉ mk₂ := by
        intro j hj hjm
        rcases (hmk₂' j).1 hjm with rfl | h | h
        · exact his hj
        · exact hmk j (hmem_s j hj) h
        · exact hdis j h j hj rfl
      have hframe_c : ∀ j, j ∉ kids.labels → c₂ j = c j := by
        intro j hj
        rw [hcf₂ j hj, hcf₁ j (fun h => hj (RF.roots_subset _ _ h))]
      have hframe_s : ∀ e : ℕ × ℕ, (e.1 ∉ i :: kids.labels ∨ e.2 ∉ i :: kids.labels) → sl₂ e = sl e := by
        intro e he
        rw [hsf₂ e (he.imp (fun h h' => h (List.mem_cons_of_mem _ h'))
          (fun h h' => h (List.mem_cons_of_mem _ h'))), hsf₁ e]
        intro r hr
        have hr' := RF.roots_subset _ _ hr
        constructor
        · rintro rfl
          rcases he with h | h
          · exact h List.mem_cons_self
          · exact h (List.mem_cons_of_mem _ hr')
        · rintro rfl
          rcases he with h | h
          · exact h (List.mem_cons_of_mem _ hr')
          · exact h List.mem_cons_self
      obtain ⟨F₃, c₃, sl₃, hF₃, hsim₃, hmk₃, hcl₃, hcf₃, hsf₃⟩ :=
        ihs (s := s) (l := l₂) (F := F₂) (mk := mk₂) (fuel := fuel + 1) (D := D) hfs (by omega)
          (filter_congr_marks hl₂ (fun a ha => (hmk₂' a).2 (Or.inr (Or.inl ha)))
            (fun a ha => hs_mk a (RF.roots_subset _ a ha))) hnds
          ((hmk₂' s).2 (Or.inr (Or.inl hs))) hs_mk hsim₂
          (by
            refine hready'.congr ?_ ?_
            · intro j hj
              exact hframe_c j (fun h => hdis j h j hj rfl)
            · intro e h1 h2
              apply hframe_s
              left
              rw [List.mem_cons, not_or]
              exact ⟨fun h => his (h ▸ h1), fun h => hdis _ h _ h1 rfl⟩) hrest
      have hlen : (RF.cons i kids sibs).labels.length * (2 * R + L + 2) =
          kids.labels.length * (2 * R + L + 2) + sibs.labels.length * (2 * R + L + 2) + (2 * R + L + 2) := by
        simp only [RF.labels, List.length_cons, List.length_append]; ring
      refine ⟨F₃, c₃, sl₃, ?_, hsim₃, ?_, ?_, ?_, ?_⟩
      · rw [List.foldlM_append, foldlM_skip (fun a ha => by simp [distBody₂, hl₁ a ha])]
        simp only [bind, Except.bind, List.foldlM_cons, hbodyF]
        exact hF₃
      · intro j
        rw [hmk₃, hmk₂']
        simp only [RF.labels, List.mem_cons, List.mem_append]
        tauto
      · intro j hj
        simp only [RF.labels, List.mem_cons, List.mem_append] at hj
        rw [hlen]
        rcases hj with rfl | hj | hj
        · rw [hcf₃ j his, hframe_c j hik]; omega
        · rw [hcf₃ j (fun h => hdis j hj j h rfl)]
          have := hcl₂ j hj
          omega
        · have := hcl₃ j hj
          omega
      · intro j hj
        simp only [RF.labels, List.mem_cons, List.mem_append, not_or] at hj
        rw [hcf₃ j hj.2.2, hframe_c j hj.2.1]
      · intro e he
        rw [hsf₃ e, hframe_s e]
        · refine he.imp (fun h h' => h ?_) (fun h h' => h ?_) <;>
          · rcases List.mem_cons.1 h' with h' | h' <;> simp [RF.labels, h']
        · exact he.imp (fun h h' => h (hmem_s _ h')) (fun h h' => h (hmem_s _ h'))

/-- Roundings after `collect_evidence`, for `n` cliques with tables of at most `L` entries and initial tables with at most `A`
roundings. -/
def collectBound (n A L : ℕ) : ℕ := A + n * (A + L + 2)

/-- Roundings after propagation. -/
def propagateBound (n A L : ℕ) : ℕ :=
  collectBound n A L + (n + 1) * (2 * collectBound n A L + L + 2)

theorem propagate_sim (h : Rounds u rd) {jt : JT V} {ord : ℕ → List ℕ} {r : ℕ} {f : RF} {A L : ℕ}
    {F : PState V S (Fl rd)} {Q Q' : PState V S ℚ}
    (hroots : ord r = f.roots) (hfit : f.Fits jt ord r) (hnd : (r :: f.labels).Nodup)
    (hlen : f.labels.length < jt.cliques.length) {c : ℕ → ℕ} {sl : ℕ × ℕ → ℕ} (hsim : Sim u L c sl F Q)
    (hA : ∀ i, c i ≤ A) (hs0 : ∀ e, sl e = 0) (hrun : propagate jt ord r Q = .ok Q') :
    ∃ F' c' sl', propagate jt ord r F = .ok F' ∧ Sim u L c' sl' F' Q' ∧
      ∀ i ∈ r :: f.labels, c' i ≤ propagateBound f.labels.length A L := by
  rw [List.nodup_cons] at hnd
  obtain ⟨n, hn⟩ : ∃ n, jt.cliques.length = n + 1 := ⟨jt.cliques.length - 1, by omega⟩
  have hfilter : (ord r).filter (· ∉ [r]) = f.roots := by
    rw [hroots, List.filter_eq_self]
    intro a ha
    have : a ≠ r := fun h => hnd.1 (h ▸ RF.roots_subset _ _ ha)
    simpa using this
  have hnotin : ∀ i ∈ f.labels, i ∉ [r] := by
    intro i hi h
    rw [List.mem_singleton] at h
    exact hnd.1 (h ▸ hi)
  unfold propagate at hrun ⊢
  rw [hn, collect_succ] at hrun
  rw [hn, collect_succ]
  simp only [bind, Except.bind, pure, Except.pure] at hrun ⊢
  cases h1 : (ord r).foldlM (collectBody jt ord n r) (Q, [r]) with
  | error e => simp [h1] at hrun
  | ok st1 =>
    obtain ⟨Q1, mk1⟩ := st1
    obtain ⟨F1, c1, sl1, hF1, hsim1, -, hc1r, hc1l, hs1, hc1f, hs1f⟩ :=
      collect_sim h f (A := A) (s := r) (l := ord r) (F := F) (mk := [r]) (fuel := n) hfit (by omega) hfilter hnd.2
        (by simp) hnotin hsim (fun i _ => hA i) (fun e _ => hs0 e) h1
    rw [h1] at hrun
    rw [hF1]
    simp only [distribute_succ, bind, Except.bind] at hrun ⊢
    cases h2 : (ord r).foldlM (distBody₁ jt r) (Q1, [r]) with
    | error e => simp [h2] at hrun
    | ok st2 =>
      obtain ⟨Q2, mk2⟩ := st2
      have hB : f.work A L ≤ collectBound f.labels.length A L := by
        unfold collectBound RF.work; omega
      have hBr : c1 r ≤ collectBound f.labels.length A L := by
        have := hA r
        unfold collectBound
        unfold RF.work at hc1r
        omega
      obtain ⟨F2, c2, sl2, hF2, hsim2, hmk2, hr2, hc2f, hs2f⟩ :=
        dist_sim₁ h f (R := collectBound f.labels.length A L) (s := r) (l := ord r) (F := F1) (mk := [r]) hfit hfilter hnd.2
          (by simp) hnotin hsim1 hBr (fun i hi => (hc1l i hi).trans hB) (fun e he => (hs1 e he).trans hB) h2
      subst hmk2
      rw [h2] at hrun
      rw [hF2]
      simp only at hrun ⊢
      have hready := RF.lready_of f.roots hnd.2 hnd.1 (fun i hi => (hc1l i hi).trans hB)
        (fun e he => (hs1 e he).trans hB) hr2 (fun _ h => h) (fun _ h _ => h) hc2f hs2f
      cases h3 : (ord r).foldlM (distBody₂ jt ord n) (Q2, [r]) with
      | error e => simp [h3] at hrun
      | ok st3 =>
        obtain ⟨Q3, mk3⟩ := st3
        obtain ⟨F3, c3, sl3, hF3, hsim3, -, hc3, hc3f, -⟩ :=
          dist_sim₂ h f (s := r) (l := ord r) (F := F2) (mk := [r]) (fuel := n) hfit (by omega) hfilter hnd.2 (by simp)
            hnotin hsim2 hready h3
        rw [h3] at hrun
        rw [hF3]
        simp only [Except.ok.injEq] at hrun ⊢
        subst hrun
        refine ⟨F3, c3, sl3, rfl, hsim3, ?_⟩
        intro i hi
        have e1 : propagateBound f.labels.length A L = collectBound f.labels.length A L +
            (f.labels.length * (2 * collectBound f.labels.length A L + L + 2) +
              (2 * collectBound f.labels.length A L + L + 2)) := by
          unfold propagateBound; ring
        rw [e1]
        rcases List.mem_cons.1 hi with rfl | hi
        · rw [hc3f i hnd.1, hc2f i (fun h => hnd.1 (RF.roots_subset _ _ h))]
          omega
        · have := hc3 i hi
          omega

end

end Verif.BBN
