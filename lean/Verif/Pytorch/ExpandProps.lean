import Verif.Pytorch.ExpandLemmas

/-!
# Properties of the preprocessing (C60, C63)
-/

namespace Verif.Pytorch

open Verif.Str

/-- The schema in force: without one, every column is continuous. -/
def schemaOf (X : Frame) (schema : Option (List (ℕ × Alias))) : List (ℕ × Alias) :=
  schema.getD ((List.range X.cols).map fun i => (i, .cont))

/-- The schema is a dictionary (different keys). -/
def SchemaDict (schema : Option (List (ℕ × Alias))) : Prop := ∀ s, schema = some s → (s.map Prod.fst).Nodup

theorem prepareChecked_ok {X : Frame} {schema : Option (List (ℕ × Alias))} {t : Notears.Tabu ℕ} {p : Prep}
    (h : prepareChecked X schema t = .ok p) (hd : SchemaDict schema) :
    X.rows ≠ [] ∧ 0 < X.cols ∧ prepare (schemaOf X schema) X t = .ok p ∧
      ((schemaOf X schema).map Prod.fst).Perm (List.range X.cols) := by
  unfold prepareChecked at h
  split_ifs at h with hz
  have hz' : X.rows ≠ [] ∧ 0 < X.cols := by
    constructor
    · rintro h'; rw [h'] at hz; simp at hz
    · rcases Nat.eq_zero_or_pos X.cols with h' | h'
      · rw [h'] at hz; simp at hz
      · exact h'
  refine ⟨hz'.1, hz'.2, ?_⟩
  cases schema with
  | none => exact ⟨h, by simp [schemaOf, Function.comp_def]⟩
  | some s =>
    simp only at h
    split_ifs at h with hk
    refine ⟨h, ?_⟩
    simp only [Bool.and_eq_true, List.all_eq_true, decide_eq_true_eq, List.mem_range] at hk
    refine (List.perm_ext_iff_of_nodup (hd s rfl) List.nodup_range).2 fun i => ?_
    rw [List.mem_range]
    exact ⟨fun hi => hk.2 i hi, fun hi => hk.1 i hi⟩

/-- **C63**: after the preprocessing every column of the result belongs to exactly one variable; every variable keeps its original
column and its further columns are new ones; the data of every variable are where it recorded them, encoded with what it learned
from the original data. -/
theorem prepare_layout (X : Frame) (schema : Option (List (ℕ × Alias))) (t : Notears.Tabu ℕ) (p : Prep) (hwf : X.WF)
    (hd : SchemaDict schema) (h : prepareChecked X schema t = .ok p) :
    p.encs.map (fun e => (e.idx, e.alias)) = schemaOf X schema ∧
    (p.encs.flatMap Enc.cols).Perm (List.range p.data.cols) ∧
    (∀ e ∈ p.encs, e.idx < X.cols ∧ e.cols.head? = some e.idx ∧ ∀ k ∈ e.cols.tail, X.cols ≤ k) ∧
    (∀ e ∈ p.encs, e.Learned X) ∧
    List.Forall₂ (fun r out => out.length = p.data.cols ∧ ∀ e ∈ p.encs, e.Encodes r out) X.rows p.data.rows := by
  obtain ⟨hne, -, hp, hperm⟩ := prepareChecked_ok h hd
  have hnd : ((schemaOf X schema).map Prod.fst).Nodup := hperm.nodup_iff.2 List.nodup_range
  have hlt : ∀ x ∈ schemaOf X schema, x.1 < X.cols := fun x hx =>
    List.mem_range.1 (hperm.mem_iff.1 (List.mem_map.2 ⟨x, hx, rfl⟩))
  obtain ⟨h1, h2, h3, h4, -, h6⟩ := prepare_spec _ X t p hwf hne hnd hlt hp
  have hidx : p.encs.map Enc.idx = (schemaOf X schema).map Prod.fst := by
    rw [← h1, List.map_map]; rfl
  refine ⟨h1, ?_, ?_, h3, ?_⟩
  · refine (Laid.cols_perm p.encs X.cols h2).trans ?_
    rw [hidx, h4]
    refine (List.Perm.append_right _ hperm).trans ?_
    rw [List.range_eq_range', List.range_eq_range']
    have := List.range'_append_1 (s := 0) (m := X.cols) (n := extras p.encs)
    rw [Nat.zero_add] at this
    rw [this]
  · intro e he
    have hi : e.idx < X.cols := by
      have : e.idx ∈ (schemaOf X schema).map Prod.fst := by rw [← hidx]; exact List.mem_map.2 ⟨e, he, rfl⟩
      exact List.mem_range.1 (hperm.mem_iff.1 this)
    obtain ⟨n', hn, hpl⟩ := Laid.mem h2 e he
    refine ⟨hi, by rw [hpl.cols_eq]; rfl, ?_⟩
    intro k hk
    rw [hpl.cols_eq, List.tail_cons, List.mem_range'_1] at hk
    omega
  · rw [h4]
    simp only [List.forall₂_map_right_iff]
    rw [List.forall₂_same]
    intro r hr
    obtain ⟨e1, _, e3⟩ := applyEncs_spec p.encs X.cols r h2 (hwf r hr) h6
    exact ⟨e1, e3⟩

/-- The preprocessing succeeds exactly for nonempty data with a schema for exactly the columns and without negative counts; all
errors are `ValueError`. -/
theorem prepare_total (X : Frame) (schema : Option (List (ℕ × Alias))) (t : Notears.Tabu ℕ) (hwf : X.WF)
    (hd : SchemaDict schema) :
    ((∃ p, prepareChecked X schema t = .ok p) ↔ X.rows ≠ [] ∧ 0 < X.cols ∧
      (∀ s, schema = some s → ∀ i, i ∈ s.map Prod.fst ↔ i < X.cols) ∧
      ∀ i, (i, Alias.poiss) ∈ schemaOf X schema → ∀ v ∈ X.column i, 0 ≤ v) ∧
    (∀ e, prepareChecked X schema t = .error e → e = .valueError) := by
  have key : ∀ (ts : List (ℕ × Alias)) (X : Frame) (t : Notears.Tabu ℕ), X.WF → X.rows ≠ [] → (ts.map Prod.fst).Nodup →
      (∀ x ∈ ts, x.1 < X.cols) →
      ((∃ p, prepare ts X t = .ok p) ↔ ∀ i, (i, Alias.poiss) ∈ ts → ∀ v ∈ X.column i, 0 ≤ v) ∧
      ∀ e, prepare ts X t = .error e → e = .valueError := by
    intro ts
    induction ts with
    | nil => intro X t _ _ _ _; simp [prepare]
    | cons x ts ih =>
      intro X t hwf hne hnd hlt
      obtain ⟨idx, a⟩ := x
      have hi : idx < X.cols := hlt (idx, a) (by simp)
      obtain ⟨hok, hiff, herr⟩ := fitType_spec a idx X hwf hi hne
      rw [List.map_cons, List.nodup_cons] at hnd
      simp only [prepare]
      cases hf : fitType a idx X with
      | error e =>
        refine ⟨?_, by intro e' h; cases h; exact herr e hf⟩
        have hno : ¬ ∃ r, fitType a idx X = .ok r := by rintro ⟨r, hr⟩; rw [hf] at hr; cases hr
        rw [hiff] at hno
        constructor
        · rintro ⟨p, hp⟩; cases hp
        · intro h; exact absurd (fun ha => h idx (by rw [ha]; simp)) hno
      | ok r =>
        obtain ⟨enc, X'⟩ := r
        obtain ⟨h1, h2, h3, h4, h5, h6, -⟩ := hok enc X' hf
        subst h5
        have hpo := hiff.1 ⟨_, hf⟩
        obtain ⟨i1, i2⟩ := ih _ (updateTabu enc t) h6 (by simpa using hne) hnd.2
          (fun x hx => by have := hlt x (by simp [hx]); simp only; omega)
        have hcol : ∀ i b, (i, b) ∈ ts → (⟨X.cols + enc.extra, X.rows.map enc.rowFun⟩ : Frame).column i = X.column i := by
          intro i b hib
          refine column_map_rowFun hwf enc _ i (hlt (i, b) (by simp [hib])) ?_
          rintro rfl
          exact hnd.1 (List.mem_map.2 ⟨_, hib, h1⟩)
        refine ⟨?_, ?_⟩
        · have : (∃ p, prepare ts ⟨X.cols + enc.extra, X.rows.map enc.rowFun⟩ (updateTabu enc t) = .ok p) ↔
              ∃ p : Prep, (match prepare ts ⟨X.cols + enc.extra, X.rows.map enc.rowFun⟩ (updateTabu enc t) with
                | .error e => (.error e : Except Err Prep)
                | .ok p => (.ok { p with encs := enc :: p.encs } : Except Err Prep)) = .ok p := by
            cases prepare ts ⟨X.cols + enc.extra, X.rows.map enc.rowFun⟩ (updateTabu enc t) <;> simp
          refine this.symm.trans ?_
          rw [i1]
          constructor
          · intro hall i hmem
            rcases List.mem_cons.1 hmem with heq | hmem
            · cases heq; exact hpo rfl
            · rw [← hcol i _ hmem]; exact hall i hmem
          · intro hall i hmem
            rw [hcol i _ hmem]; exact hall i (by simp [hmem])
        · intro e he
          simp only at he
          cases hq : prepare ts ⟨X.cols + enc.extra, X.rows.map enc.rowFun⟩ (updateTabu enc t) with
          | error e' => rw [hq] at he; cases he; exact i2 e hq
          | ok q => rw [hq] at he; cases he
  unfold prepareChecked
  by_cases hz : X.rows.length * X.cols = 0
  · rw [if_pos hz]
    refine ⟨?_, by intro e h; cases h; rfl⟩
    constructor
    · rintro ⟨p, hp⟩; cases hp
    · rintro ⟨h1, h2, -⟩
      have := List.length_pos_of_ne_nil h1
      have := Nat.mul_pos this h2
      omega
  · rw [if_neg hz]
    have hz' : X.rows ≠ [] ∧ 0 < X.cols := by
      constructor
      · rintro h'; rw [h'] at hz; simp at hz
      · rcases Nat.eq_zero_or_pos X.cols with h' | h'
        · rw [h'] at hz; simp at hz
        · exact h'
    cases schema with
    | none =>
      obtain ⟨k1, k2⟩ := key ((List.range X.cols).map fun i => (i, Alias.cont)) X t hwf hz'.1
        (by simp [Function.comp_def, List.nodup_range]) (by intro x hx; simp at hx; obtain ⟨a, ha, rfl⟩ := hx; exact ha)
      refine ⟨?_, k2⟩
      simp only [k1, schemaOf, Option.getD_none]
      simp [hz']
    | some s =>
      simp only
      split_ifs with hk
      · simp only [Bool.and_eq_true, List.all_eq_true, decide_eq_true_eq, List.mem_range] at hk
        obtain ⟨k1, k2⟩ := key s X t hwf hz'.1 (hd s rfl) (fun x hx => hk.2 x.1 (List.mem_map.2 ⟨x, hx, rfl⟩))
        refine ⟨?_, k2⟩
        rw [k1]
        constructor
        · intro hh
          refine ⟨hz'.1, hz'.2, ?_, hh⟩
          intro s' hs' i
          obtain rfl := Option.some.inj hs'
          exact ⟨fun hi => hk.2 i hi, fun hi => hk.1 i hi⟩
        · rintro ⟨-, -, -, hh⟩; exact hh
      · refine ⟨?_, by intro e h; cases h; rfl⟩
        constructor
        · rintro ⟨p, hp⟩; cases hp
        · rintro ⟨-, -, hh, -⟩
          refine absurd ?_ hk
          simp only [Bool.and_eq_true, List.all_eq_true, decide_eq_true_eq, List.mem_range]
          exact ⟨fun i hi => (hh s rfl i).2 hi, fun i hi => (hh s rfl i).1 hi⟩

/-! ### New data -/

theorem transformType_ok (e : Enc) (Y : Frame) :
    ((∀ r ∈ Y.rows, e.Accepts r) → transformType e Y = .ok ⟨Y.cols + e.extra, Y.rows.map e.rowFun⟩) ∧
    (¬ (∀ r ∈ Y.rows, e.Accepts r) → transformType e Y = .error .valueError) := by
  have hid : (⟨Y.cols + 0, Y.rows.map id⟩ : Frame) = Y := by simp
  cases e with
  | cont i => exact ⟨fun _ => by rw [transformType]; exact congrArg _ hid.symm, fun h => absurd (fun _ _ => trivial) h⟩
  | bin i => exact ⟨fun _ => by rw [transformType]; exact congrArg _ hid.symm, fun h => absurd (fun _ _ => trivial) h⟩
  | poiss i =>
    have : ((Y.column i).any (· < 0)) = true ↔ ¬ ∀ r ∈ Y.rows, (Enc.poiss i).Accepts r := by
      simp [Frame.column, Enc.Accepts]
    refine ⟨fun h => ?_, fun h => ?_⟩
    · rw [transformType, if_neg (by rw [this]; simpa using h)]; exact congrArg _ hid.symm
    · rw [transformType, if_pos (this.2 h)]
  | cat i g cats =>
    have : ((Y.column i).all (· ∈ cats)) = true ↔ ∀ r ∈ Y.rows, (Enc.cat i g cats).Accepts r := by
      simp [Frame.column, Enc.Accepts]
    refine ⟨fun h => ?_, fun h => ?_⟩
    · rw [transformType, if_pos (this.2 h)]; rfl
    · rw [transformType, if_neg (by rw [this]; exact h)]
  | ord i cats counts =>
    have : ((Y.column i).all (· ∈ cats)) = true ↔ ∀ r ∈ Y.rows, (Enc.ord i cats counts).Accepts r := by
      simp [Frame.column, Enc.Accepts]
    refine ⟨fun h => ?_, fun h => ?_⟩
    · rw [transformType, if_pos (this.2 h)]; rfl
    · rw [transformType, if_neg (by rw [this]; exact h)]

theorem Enc.Accepts.congr {e : Enc} {r r' : List ℚ} (hi : r'[e.idx]? = r[e.idx]?) : e.Accepts r' ↔ e.Accepts r := by
  have hd : r'.getD e.idx 0 = r.getD e.idx 0 := by simp [List.getD_eq_getElem?_getD, hi]
  cases e with
  | cont i => exact Iff.rfl
  | bin i => exact Iff.rfl
  | poiss i => simp only [Enc.Accepts]; rw [show r'.getD i 0 = r.getD i 0 from hd]
  | cat i g cats => simp only [Enc.Accepts]; rw [show r'.getD i 0 = r.getD i 0 from hd]
  | ord i cats counts => simp only [Enc.Accepts]; rw [show r'.getD i 0 = r.getD i 0 from hd]

theorem transformAll_ok (es : List Enc) : ∀ (n : ℕ) (Y : Frame), Laid n es → Y.WF → Y.cols = n →
    ((∀ r ∈ Y.rows, ∀ e ∈ es, e.Accepts r) → transformAll es Y = .ok ⟨n + extras es, Y.rows.map (applyEncs es)⟩) ∧
    (¬ (∀ r ∈ Y.rows, ∀ e ∈ es, e.Accepts r) → transformAll es Y = .error .valueError) := by
  induction es with
  | nil =>
    intro n Y _ _ hc
    refine ⟨fun _ => ?_, fun h => absurd (by simp) h⟩
    have : Y.rows.map (applyEncs []) = Y.rows := (List.map_congr_left fun _ _ => rfl).trans (List.map_id _)
    simp [transformAll, extras, this, ← hc]
  | cons e es ih =>
    intro n Y hl hwf hc
    obtain ⟨hp, hd, hl'⟩ := hl
    obtain ⟨t1, t2⟩ := transformType_ok e Y
    have hwf' : (⟨Y.cols + e.extra, Y.rows.map e.rowFun⟩ : Frame).WF := by
      intro r hr
      obtain ⟨r0, hr0, rfl⟩ := List.mem_map.1 hr
      show _ = Y.cols + e.extra
      rw [hc]
      exact hp.rowFun_length r0 (by rw [hwf r0 hr0, hc])
    obtain ⟨i1, i2⟩ := ih (n + e.extra) ⟨Y.cols + e.extra, Y.rows.map e.rowFun⟩ hl' hwf' (by simp [hc])
    have hacc : (∀ r ∈ Y.rows.map e.rowFun, ∀ e' ∈ es, e'.Accepts r) ↔ ∀ r ∈ Y.rows, ∀ e' ∈ es, e'.Accepts r := by
      simp only [List.mem_map, forall_exists_index, and_imp, forall_apply_eq_imp_iff₂]
      refine forall₂_congr fun r hr => forall₂_congr fun e' he' => ?_
      refine Enc.Accepts.congr (e.rowFun_other r _ ?_ (hd e' he').1)
      rw [hwf r hr, hc]; exact (hd e' he').2
    refine ⟨fun h => ?_, fun h => ?_⟩
    · rw [transformAll, t1 fun r hr => h r hr e (by simp)]
      refine (i1 (hacc.2 fun r hr e' he' => h r hr e' (by simp [he']))).trans ?_
      simp only [extras, List.map_cons, List.sum_cons, Nat.add_assoc, List.map_map]
      rfl
    · by_cases he : ∀ r ∈ Y.rows, e.Accepts r
      · rw [transformAll, t1 he]
        refine i2 ?_
        rw [hacc]
        intro h'
        exact h fun r hr e' he' => by
          rcases List.mem_cons.1 he' with rfl | he'
          · exact he r hr
          · exact h' r hr e' he'
      · rw [transformAll, t2 he]; rfl

/-- **C63**: new data (for predictions) are placed and encoded like the training data; they are rejected with a `ValueError` exactly
if a row has a category not seen in training or a negative count. -/
theorem transform_layout (X Y : Frame) (schema : Option (List (ℕ × Alias))) (t : Notears.Tabu ℕ) (p : Prep) (hwf : X.WF)
    (hd : SchemaDict schema) (h : prepareChecked X schema t = .ok p) (hY : Y.WF) (hc : Y.cols = X.cols) :
    ((∀ r ∈ Y.rows, ∀ e ∈ p.encs, e.Accepts r) → ∃ Z, transformAll p.encs Y = .ok Z ∧ Z.cols = p.data.cols ∧
      List.Forall₂ (fun r out => out.length = Z.cols ∧ ∀ e ∈ p.encs, e.Encodes r out) Y.rows Z.rows) ∧
    (¬ (∀ r ∈ Y.rows, ∀ e ∈ p.encs, e.Accepts r) → transformAll p.encs Y = .error .valueError) ∧
    transformAll p.encs X = .ok p.data := by
  obtain ⟨hne, -, hp, hperm⟩ := prepareChecked_ok h hd
  have hnd : ((schemaOf X schema).map Prod.fst).Nodup := hperm.nodup_iff.2 List.nodup_range
  have hlt : ∀ x ∈ schemaOf X schema, x.1 < X.cols := fun x hx =>
    List.mem_range.1 (hperm.mem_iff.1 (List.mem_map.2 ⟨x, hx, rfl⟩))
  obtain ⟨h1, h2, h3, h4, -, h6⟩ := prepare_spec _ X t p hwf hne hnd hlt hp
  obtain ⟨a1, a2⟩ := transformAll_ok p.encs X.cols Y h2 hY hc
  refine ⟨fun hacc => ?_, a2, ?_⟩
  · refine ⟨_, a1 hacc, by rw [h4], ?_⟩
    simp only [List.forall₂_map_right_iff]
    rw [List.forall₂_same]
    intro r hr
    obtain ⟨e1, _, e3⟩ := applyEncs_spec p.encs X.cols r h2 (by rw [hY r hr, hc]) h6
    exact ⟨e1, e3⟩
  · rw [(transformAll_ok p.encs X.cols X h2 hwf rfl).1 ?_, h4]
    intro r hr e he
    have hmem : r.getD e.idx 0 ∈ X.column e.idx := List.mem_map.2 ⟨r, hr, rfl⟩
    have hl := h3 e he
    cases e with
    | cont i => trivial
    | bin i => trivial
    | poiss i => exact hl _ hmem
    | cat i g cats => exact (hl.1.2 _).2 hmem
    | ord i cats counts => exact (hl.1.2 _).2 hmem

end Verif.Pytorch
