import Verif.BBN.JoinTree

/-!
# The separator insertion loop of `build_join_tree` builds a maximum-mass spanning tree
-/

namespace Verif.BBN
open Verif.Graph (Link WConn wconn_of_mem wconn_mono wconn_lift wconn_cons nc)

variable {V : Type} [LinearOrder V]

/-- What holds at every turn of the insertion loop. -/
structure KInv (cl : List (Finset V)) (forest : Forest) (cands inserted : List (ℕ × ℕ)) :
    Prop where
  flat : forest.flatten.Perm (List.range cl.length)
  ne : ∀ t ∈ forest, t ≠ []
  conn : ∀ t ∈ forest, ∀ a ∈ t, ∀ b, b ∈ t ↔ WConn inserted a b
  len : forest.length + inserted.length = cl.length
  acyc : Graph.Forest inserted
  greedy : Greedy cl inserted
  cands_sub : ∀ e ∈ cands, e ∈ sepsets cl
  cands_all : ∀ e ∈ sepsets cl, e ∈ cands ∨ e ∈ inserted

theorem KInv.init (cl : List (Finset V)) :
    KInv cl ((List.range cl.length).map fun i => [i]) (sepsets cl) [] where
  flat := by
    have : ((List.range cl.length).map fun i => [i]).flatten = List.range cl.length := by
      induction List.range cl.length with
      | nil => rfl
      | cons a l ih => simp [ih]
    rw [this]
  ne := by
    intro t ht
    obtain ⟨i, _, rfl⟩ := List.mem_map.1 ht
    simp
  conn := by
    intro t ht a ha b
    obtain ⟨i, _, rfl⟩ := List.mem_map.1 ht
    rw [List.mem_singleton] at ha ⊢
    subst ha
    constructor
    · rintro rfl; exact .refl
    · intro h
      induction h with
      | refl => rfl
      | tail _ hl _ => rcases hl with hl | hl <;> simp at hl
  len := by simp
  acyc := trivial
  greedy := trivial
  cands_sub := fun _ h => h
  cands_all := fun _ h => Or.inl h

theorem KInv.tree {cl : List (Finset V)} {forest : Forest} {cands inserted : List (ℕ × ℕ)}
    (h : KInv cl forest cands inserted) {a : ℕ} (ha : a < cl.length) :
    ∃ t ∈ forest, a ∈ t ∧ forest.filter (fun t => a ∈ t) = [t] := by
  have hmem : a ∈ forest.flatten := h.flat.mem_iff.2 (List.mem_range.2 ha)
  obtain ⟨t, ht, hat⟩ := List.mem_flatten.1 hmem
  have hnd : forest.flatten.Nodup := h.flat.nodup_iff.2 List.nodup_range
  have hpw := (List.nodup_flatten.1 hnd).2
  have hmem' : t ∈ forest.filter (fun t => a ∈ t) := List.mem_filter.2 ⟨ht, by simpa using hat⟩
  have hpw' := hpw.filter (fun t => decide (a ∈ t))
  refine ⟨t, ht, hat, ?_⟩
  match hf : forest.filter (fun t => a ∈ t) with
  | [] => rw [hf] at hmem'; simp at hmem'
  | [u] => rw [hf] at hmem'; simp at hmem'; rw [hmem', ← hf]
  | u :: w :: rest =>
    exfalso
    rw [hf] at hpw'
    have hd := (List.pairwise_cons.1 hpw').1 w List.mem_cons_self
    have hu : u ∈ forest.filter (fun t => a ∈ t) := by rw [hf]; simp
    have hw : w ∈ forest.filter (fun t => a ∈ t) := by rw [hf]; simp
    have hu' : a ∈ u := by simpa using (List.mem_filter.1 hu).2
    have hw' : a ∈ w := by simpa using (List.mem_filter.1 hw).2
    exact hd hu' hw'

theorem KInv.insertable {cl : List (Finset V)} {forest : Forest} {cands inserted : List (ℕ × ℕ)}
    (h : KInv cl forest cands inserted) {e : ℕ × ℕ} (he : e ∈ sepsets cl) :
    ∃ b, insertable forest e = .ok b ∧ (b = true ↔ ¬ WConn inserted e.1 e.2) := by
  have hr := mem_sepsets he
  obtain ⟨tx, htx, hax, hfx⟩ := h.tree hr.1
  obtain ⟨ty, hty, hby, hfy⟩ := h.tree hr.2.1
  refine ⟨decide (tx ≠ ty), by simp [Verif.BBN.insertable, hfx, hfy], ?_⟩
  rw [decide_eq_true_iff]
  refine not_congr ?_
  constructor
  · rintro rfl
    exact (h.conn tx htx _ hax _).1 hby
  · intro hw
    have hb : e.2 ∈ tx := (h.conn tx htx _ hax _).2 hw
    have : tx ∈ forest.filter (fun t => e.2 ∈ t) :=
      List.mem_filter.2 ⟨htx, by simpa using hb⟩
    rw [hfy] at this
    simpa using this

theorem KInv.insertSep {cl : List (Finset V)} {forest : Forest} {cands inserted : List (ℕ × ℕ)}
    (h : KInv cl forest cands inserted) {e : ℕ × ℕ} (he : e ∈ cands)
    (hn : ¬ WConn inserted e.1 e.2)
    (hmax : ∀ c ∈ sepsets cl, mass cl e < mass cl c → WConn inserted c.1 c.2) :
    KInv cl (insertSep forest e) (cands.erase e) (e :: inserted) := by
  have hes := h.cands_sub e he
  have hr := mem_sepsets hes
  obtain ⟨tx, htx, hax, hfx⟩ := h.tree hr.1
  obtain ⟨ty, hty, hby, hfy⟩ := h.tree hr.2.1
  have hne : tx ≠ ty := by
    rintro rfl
    exact hn ((h.conn tx htx _ hax _).1 hby)
  have hnd : forest.flatten.Nodup := h.flat.nodup_iff.2 List.nodup_range
  have hpw := (List.nodup_flatten.1 hnd).2
  have hfnd : forest.Nodup := by
    have h1 : forest.Pairwise fun a b => a.Disjoint b ∧ a ≠ [] := by
      have h2 : forest.Pairwise fun a _ => a ≠ [] := by
        rw [List.pairwise_iff_forall_sublist]
        intro a b hab
        exact h.ne a (hab.subset (by simp))
      exact hpw.and h2
    refine h1.imp ?_
    rintro a b ⟨hd, ha⟩ rfl
    obtain ⟨z, hz⟩ := List.exists_mem_of_ne_nil a ha
    exact hd hz hz
  have hp1 : forest.Perm (ty :: forest.erase ty) := List.perm_cons_erase hty
  have htx' : tx ∈ forest.erase ty := (List.mem_erase_of_ne hne).2 htx
  have hp2 : (forest.erase ty).Perm (tx :: (forest.erase ty).erase tx) := List.perm_cons_erase htx'
  set rest := (forest.erase ty).erase tx with hrest
  have hp3 : forest.Perm (ty :: tx :: rest) := hp1.trans (hp2.cons ty)
  have hnd3 : (ty :: tx :: rest).Nodup := hp3.nodup_iff.1 hfnd
  have htxr : tx ∉ rest := (List.nodup_cons.1 (List.nodup_cons.1 hnd3).2).1
  have htyr : ty ∉ rest := fun hm => (List.nodup_cons.1 hnd3).1 (List.mem_cons_of_mem _ hm)
  have hdis : ∀ z ∈ ty, z ∉ tx := by
    intro z hz hz'
    have h1 := (h.conn tx htx _ hax _).1 hz'
    have h2 := (h.conn ty hty _ hz _).1 hby
    exact hn (h1.trans h2)
  have hfil : ty.filter (· ∉ tx) = ty := by
    rw [List.filter_eq_self]
    intro z hz
    simpa using hdis z hz
  have hres : Verif.BBN.insertSep forest e =
      (forest.erase ty).map (fun t => if t = tx then tx ++ ty else t) := by
    simp only [Verif.BBN.insertSep, hfx, hfy, hfil]
  have hmapr : rest.map (fun t => if t = tx then tx ++ ty else t) = rest := by
    conv_rhs => rw [← List.map_id rest]
    apply List.map_congr_left
    intro t ht
    have : t ≠ tx := by
      rintro rfl
      exact htxr ht
    simp [this]
  have hp4 : (Verif.BBN.insertSep forest e).Perm ((tx ++ ty) :: rest) := by
    rw [hres]
    have := hp2.map (fun t => if t = tx then tx ++ ty else t)
    rw [List.map_cons, hmapr] at this
    simpa using this
  have hmem : ∀ t, t ∈ Verif.BBN.insertSep forest e ↔ t = tx ++ ty ∨ t ∈ rest := by
    intro t
    rw [hp4.mem_iff, List.mem_cons]
  have hmemr : ∀ t ∈ rest, t ∈ forest := fun t ht => hp3.mem_iff.2 (by simp [ht])
  constructor
  · refine (hp4.flatten).trans (List.Perm.trans ?_ (hp3.flatten.symm.trans h.flat))
    simp only [List.flatten_cons]
    rw [← List.append_assoc]
    exact (List.perm_append_comm).append_right _
  · intro t ht
    rcases (hmem t).1 ht with rfl | ht
    · intro hc
      rw [List.append_eq_nil_iff] at hc
      exact h.ne tx htx hc.1
    · exact h.ne t (hmemr t ht)
  · intro t ht a ha b
    rw [show e :: inserted = (e.1, e.2) :: inserted from rfl, wconn_cons]
    rcases (hmem t).1 ht with rfl | ht
    · rw [List.mem_append]
      rcases List.mem_append.1 ha with ha | ha
      · have h1 : ∀ z, z ∈ tx ↔ WConn inserted a z := h.conn tx htx a ha
        have h2 : ∀ z, z ∈ ty ↔ WConn inserted e.2 z := h.conn ty hty _ hby
        rw [h1, h2]
        have hae := (h1 e.1).1 hax
        constructor
        · rintro (hw | hw)
          · exact Or.inl hw
          · exact Or.inr (Or.inl ⟨hae, hw⟩)
        · rintro (hw | ⟨_, hw⟩ | ⟨hw, _⟩)
          · exact Or.inl hw
          · exact Or.inr hw
          · exact absurd (hae.symm.trans hw) hn
      · have h1 : ∀ z, z ∈ tx ↔ WConn inserted e.1 z := h.conn tx htx _ hax
        have h2 : ∀ z, z ∈ ty ↔ WConn inserted a z := h.conn ty hty a ha
        rw [h1, h2]
        have hae := (h2 e.2).1 hby
        constructor
        · rintro (hw | hw)
          · exact Or.inr (Or.inr ⟨hae, hw⟩)
          · exact Or.inl hw
        · rintro (hw | ⟨hw, _⟩ | ⟨_, hw⟩)
          · exact Or.inr hw
          · exact absurd (hw.symm.trans hae) hn
          · exact Or.inl hw
    · have hc := h.conn t (hmemr t ht) a ha
      rw [hc]
      constructor
      · exact Or.inl
      · rintro (hw | ⟨hw, _⟩ | ⟨hw, _⟩)
        · exact hw
        · exfalso
          have : t ∈ forest.filter (fun t => e.1 ∈ t) :=
            List.mem_filter.2 ⟨hmemr t ht, by simpa using (hc _).2 hw⟩
          rw [hfx, List.mem_singleton] at this
          exact htxr (this ▸ ht)
        · exfalso
          have : t ∈ forest.filter (fun t => e.2 ∈ t) :=
            List.mem_filter.2 ⟨hmemr t ht, by simpa using (hc _).2 hw⟩
          rw [hfy, List.mem_singleton] at this
          exact htyr (this ▸ ht)
  · have h1 := hp4.length_eq
    have h2 := hp3.length_eq
    have h3 := h.len
    simp only [List.length_cons] at *
    omega
  · exact ⟨hn, h.acyc⟩
  · exact ⟨⟨hes, hmax⟩, h.greedy⟩
  · intro c hc
    exact h.cands_sub c (List.mem_of_mem_erase hc)
  · intro c hc
    by_cases hce : c = e
    · exact Or.inr (by simp [hce])
    · rcases h.cands_all c hc with h | h
      · exact Or.inl ((List.mem_erase_of_ne hce).2 h)
      · exact Or.inr (List.mem_cons_of_mem _ h)

/-- The scan for an insertable separator returns the first separator joining two trees. -/
theorem KInv.tryInsert {cl : List (Finset V)} {forest : Forest} {cands inserted : List (ℕ × ℕ)}
    (h : KInv cl forest cands inserted) : ∀ (l : List (ℕ × ℕ)), (∀ e ∈ l, e ∈ sepsets cl) →
    ((∀ e ∈ l, WConn inserted e.1 e.2) ∧ tryInsert forest l = .ok none) ∨
    ∃ l₁ e l₂, l = l₁ ++ e :: l₂ ∧ (∀ c ∈ l₁, WConn inserted c.1 c.2) ∧
      ¬ WConn inserted e.1 e.2 ∧
      Verif.BBN.tryInsert forest l = .ok (some (e, Verif.BBN.insertSep forest e))
  | [], _ => Or.inl ⟨by simp, rfl⟩
  | e :: l, hl => by
    obtain ⟨b, hb, hbt⟩ := h.insertable (hl e List.mem_cons_self)
    cases b with
    | true =>
      refine Or.inr ⟨[], e, l, rfl, by simp, hbt.1 rfl, ?_⟩
      simp [Verif.BBN.tryInsert, hb]
    | false =>
      have hw : WConn inserted e.1 e.2 := by
        by_contra hc
        exact absurd (hbt.2 hc) (by simp)
      have htry : Verif.BBN.tryInsert forest (e :: l) = Verif.BBN.tryInsert forest l := by
        simp [Verif.BBN.tryInsert, hb]
      rcases h.tryInsert l (fun c hc => hl c (List.mem_cons_of_mem _ hc)) with
        ⟨h1, h2⟩ | ⟨l₁, c, l₂, h1, h2, h3, h4⟩
      · refine Or.inl ⟨?_, htry.trans h2⟩
        intro c hc
        rcases List.mem_cons.1 hc with rfl | hc
        · exact hw
        · exact h1 c hc
      · refine Or.inr ⟨e :: l₁, c, l₂, by simp [h1], ?_, h3, htry.trans h4⟩
        intro d hd
        rcases List.mem_cons.1 hd with rfl | hd
        · exact hw
        · exact h2 d hd

theorem joinLoop_ok {nd : Nondet V} (hnd : nd.Legal) {cl : List (Finset V)}
    (hconn : ∀ i j, i < cl.length → j < cl.length → WConn (sepsets cl) i j) :
    ∀ (fuel : ℕ) (forest : Forest) (cands inserted : List (ℕ × ℕ)),
      KInv cl forest cands inserted → cl.length ≤ fuel + inserted.length →
      ∃ forest' cands' inserted', joinLoop nd cl fuel forest cands inserted =
          .ok (forest', inserted') ∧ KInv cl forest' cands' inserted' ∧
        cl.length ≤ inserted'.length + 1
  | 0, forest, cands, inserted, h, hf => by
    refine ⟨forest, cands, inserted, ?_, h, by omega⟩
    have : ¬ inserted.length + 1 < cl.length := by omega
    simp [joinLoop, this]
  | fuel + 1, forest, cands, inserted, h, hf => by
    by_cases hlt : inserted.length + 1 < cl.length
    · have hperm := hnd.sort_perm cl cands
      have hsub : ∀ e ∈ nd.sortS cl cands, e ∈ sepsets cl := fun e he =>
        h.cands_sub e (hperm.mem_iff.1 he)
      rcases h.tryInsert (nd.sortS cl cands) hsub with ⟨h1, _⟩ | ⟨l₁, e, l₂, h1, h2, h3, h4⟩
      · exfalso
        -- all candidates join connected nodes, so there is only one tree
        have hall : ∀ i j, i < cl.length → j < cl.length → WConn inserted i j := by
          intro i j hi hj
          refine wconn_lift (fun c hc => ?_) (hconn i j hi hj)
          rcases h.cands_all c hc with h' | h'
          · exact h1 c (hperm.mem_iff.2 h')
          · exact wconn_of_mem h'
        have hlen := h.len
        have h0 : 0 < cl.length := by omega
        obtain ⟨t, ht, hat, _⟩ := h.tree h0
        have htl : List.Nodup (List.range cl.length) := List.nodup_range
        match hfo : forest with
        | [] => simp at ht
        | [u] => simp at hlen; omega
        | u :: w :: rest =>
          obtain ⟨a, ha⟩ := List.exists_mem_of_ne_nil u (h.ne u (by simp))
          obtain ⟨b, hb⟩ := List.exists_mem_of_ne_nil w (h.ne w (by simp))
          have haf : a < cl.length := List.mem_range.1
            (h.flat.mem_iff.1 (List.mem_flatten.2 ⟨u, by simp, ha⟩))
          have hbf : b < cl.length := List.mem_range.1
            (h.flat.mem_iff.1 (List.mem_flatten.2 ⟨w, by simp, hb⟩))
          have hbu : b ∈ u := (h.conn u (by simp) a ha b).2 (hall a b haf hbf)
          have hnd' := (List.nodup_flatten.1 (h.flat.nodup_iff.2 htl)).2
          exact (List.pairwise_cons.1 hnd').1 w (by simp) hbu hb
      · have hec : e ∈ cands := hperm.mem_iff.1 (by simp [h1])
        have hmax : ∀ c ∈ sepsets cl, mass cl e < mass cl c → WConn inserted c.1 c.2 := by
          intro c hc hm
          rcases h.cands_all c hc with h' | h'
          · have hcs : c ∈ nd.sortS cl cands := hperm.mem_iff.2 h'
            have hpw := hnd.sort_mass cl cands
            rw [h1] at hcs hpw
            rcases List.mem_append.1 hcs with hcs | hcs
            · exact h2 c hcs
            · rcases List.mem_cons.1 hcs with rfl | hcs
              · omega
              · have := (List.pairwise_cons.1 (List.pairwise_append.1 hpw).2.1).1 c hcs
                omega
          · exact wconn_of_mem h'
        have hinv := h.insertSep hec h3 hmax
        obtain ⟨f', c', i', h5, h6, h7⟩ := joinLoop_ok hnd hconn fuel _ _ _ hinv
          (by simp only [List.length_cons]; omega)
        refine ⟨f', c', i', ?_, h6, h7⟩
        have hne : nd.sortS cl cands ≠ [] := by rw [h1]; simp
        simp only [joinLoop, hlt, if_true, hne, if_false, h4]
        exact h5
    · refine ⟨forest, cands, inserted, ?_, h, by omega⟩
      simp [joinLoop, hlt]

theorem joinLoop_inv {nd : Nondet V} (hnd : nd.Legal) {cl : List (Finset V)} :
    ∀ (fuel : ℕ) (forest : Forest) (cands inserted : List (ℕ × ℕ)),
      KInv cl forest cands inserted → ∀ forest' inserted',
      joinLoop nd cl fuel forest cands inserted = .ok (forest', inserted') →
      ∃ cands', KInv cl forest' cands' inserted'
  | 0, forest, cands, inserted, h, f', i', heq => by
    simp only [joinLoop] at heq
    split at heq
    · cases heq
    · cases heq
      exact ⟨cands, h⟩
  | fuel + 1, forest, cands, inserted, h, f', i', heq => by
    by_cases hlt : inserted.length + 1 < cl.length
    · have hperm := hnd.sort_perm cl cands
      have hsub : ∀ e ∈ nd.sortS cl cands, e ∈ sepsets cl := fun e he =>
        h.cands_sub e (hperm.mem_iff.1 he)
      simp only [joinLoop, hlt, if_true] at heq
      split at heq
      · cases heq
      rcases h.tryInsert (nd.sortS cl cands) hsub with ⟨_, h1⟩ | ⟨l₁, e, l₂, h1, h2, h3, h4⟩
      · simp only [h1] at heq
        cases heq
      · simp only [h4] at heq
        have hec : e ∈ cands := hperm.mem_iff.1 (by simp [h1])
        have hmax : ∀ c ∈ sepsets cl, mass cl e < mass cl c → WConn inserted c.1 c.2 := by
          intro c hc hm
          rcases h.cands_all c hc with h' | h'
          · have hcs : c ∈ nd.sortS cl cands := hperm.mem_iff.2 h'
            have hpw := hnd.sort_mass cl cands
            rw [h1] at hcs hpw
            rcases List.mem_append.1 hcs with hcs | hcs
            · exact h2 c hcs
            · rcases List.mem_cons.1 hcs with rfl | hcs
              · omega
              · have := (List.pairwise_cons.1 (List.pairwise_append.1 hpw).2.1).1 c hcs
                omega
          · exact wconn_of_mem h'
        exact joinLoop_inv hnd fuel _ _ _ (h.insertSep hec h3 hmax) f' i' heq
    · simp only [joinLoop, hlt, if_false] at heq
      cases heq
      exact ⟨cands, h⟩

theorem KInv.single {cl : List (Finset V)} {t : List ℕ} {cands edges : List (ℕ × ℕ)}
    (h : KInv cl [t] cands edges) :
    t.Perm (List.range cl.length) ∧
    ∀ i j, i < cl.length → j < cl.length → WConn edges i j := by
  have hp : t.Perm (List.range cl.length) := by simpa using h.flat
  refine ⟨hp, fun i j hi hj => ?_⟩
  have hi' : i ∈ t := hp.mem_iff.2 (List.mem_range.2 hi)
  have hj' : j ∈ t := hp.mem_iff.2 (List.mem_range.2 hj)
  exact (h.conn t (by simp) i hi' j).1 hj'

/-- The insertion loop succeeds on a nonempty list of cliques exactly when they hang together. -/
theorem joinTreeOf_ok_iff {nd : Nondet V} (hnd : nd.Legal) {cl : List (Finset V)} :
    (∃ jt, joinTreeOf nd cl = .ok jt) ↔
      cl ≠ [] ∧ ∀ i j, i < cl.length → j < cl.length → WConn (sepsets cl) i j := by
  constructor
  · rintro ⟨jt, hjt⟩
    unfold joinTreeOf at hjt
    split at hjt
    · cases hjt
    · rename_i t edges heq
      obtain ⟨cands, hinv⟩ := joinLoop_inv hnd _ _ _ _ (KInv.init cl) _ _ heq
      have hs := hinv.single
      constructor
      · rintro rfl
        have := hs.1.length_eq
        have hne := hinv.ne t (by simp)
        simp at this
        exact hne this
      · intro i j hi hj
        exact wconn_mono (hinv.greedy.mem) (hs.2 i j hi hj)
    · cases hjt
  · rintro ⟨hne, hconn⟩
    obtain ⟨f', c', i', h1, h2, h3⟩ := joinLoop_ok hnd hconn cl.length _ _ _ (KInv.init cl)
      (by simp)
    have hlen := h2.len
    have hpos : 0 < cl.length := List.length_pos_iff.2 hne
    match f', h1, h2, hlen with
    | [], _, h2, hlen =>
      exfalso
      have := h2.flat.length_eq
      simp at this
      omega
    | [t], h1, _, _ => exact ⟨⟨cl, t, i'⟩, by simp [joinTreeOf, h1]⟩
    | _ :: _ :: _, _, _, hlen => simp at hlen; omega

/-- What `joinTreeOf` builds from cliques for which some forest `J` has enough separators. -/
theorem joinTreeOf_junction {nd : Nondet V} (hnd : nd.Legal) {cl : List (Finset V)} {jt : JT V}
    (hjt : joinTreeOf nd cl = .ok jt) {J : List (ℕ × ℕ)} (hJ : Graph.Forest J)
    (hJr : ∀ e ∈ J, e.1 < cl.length ∧ e.2 < cl.length)
    (hJv : ∀ v, (holders cl v).card ≤ (J.filter fun e => v ∈ label cl e).length + 1) :
    jt.cliques = cl ∧ IsJunctionTree jt := by
  unfold joinTreeOf at hjt
  split at hjt
  · cases hjt
  · rename_i t edges heq
    cases hjt
    obtain ⟨cands, hinv⟩ := joinLoop_inv hnd _ _ _ _ (KInv.init cl) _ _ heq
    have hs := hinv.single
    refine ⟨rfl, hs.1, ?_, hs.2, ?_, ?_⟩
    · intro e he
      have := mem_sepsets (hinv.greedy.mem e he)
      exact ⟨this.1, this.2.1⟩
    · have := hinv.len
      simp at this
      simp only
      omega
    · intro v i j _ _ hi hj
      exact greedy_running hinv.greedy hinv.acyc hs.2 hJ hJr hJv hi hj
  · cases hjt

end Verif.BBN
