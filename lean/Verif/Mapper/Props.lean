import Verif.Mapper.Spec

/-!
# Properties of variables and their features (C50, C51)
-/

namespace Verif.Mapper

open Verif.Str

/-! ### Strings -/

theorem filter_natStr (n : ℕ) : (natStr n).filter (fun c => !c.isDigit) = [] := by
  rw [List.filter_eq_nil_iff]
  intro c hc
  simp [natStr_digit hc]

/-- Digits at the end do not matter for a substring without digits. -/
theorem infix_digits {x p : Str} {n : ℕ} (hx : ∀ c ∈ x, c.isDigit = false) (h : x <:+: p ++ natStr n) :
    x <:+: p.filter fun c => !c.isDigit := by
  have h1 := h.filter (fun c => !c.isDigit)
  rw [List.filter_append, filter_natStr, List.append_nil, List.filter_eq_self.2] at h1
  · exact h1
  · intro c hc
    simp [hx c hc]

theorem infix_binary (t : VarType) : sBinary <:+: t.str ↔ t = .binary := by
  cases t with
  | categorical k =>
    simp only [VarType.str, reduceCtorEq, iff_false]
    intro h
    have := infix_digits (by decide) h
    revert this
    decide
  | _ => simp only [VarType.str]; decide

theorem infix_continuous (t : VarType) : sContinuous <:+: t.str ↔ t = .continuous := by
  cases t with
  | categorical k =>
    simp only [VarType.str, reduceCtorEq, iff_false]
    intro h
    have := infix_digits (by decide) h
    revert this
    decide
  | _ => simp only [VarType.str]; decide

theorem infix_count (t : VarType) : sCount <:+: t.str ↔ t = .count := by
  cases t with
  | categorical k =>
    simp only [VarType.str, reduceCtorEq, iff_false]
    intro h
    have := infix_digits (by decide) h
    revert this
    decide
  | _ => simp only [VarType.str]; decide

theorem infix_categorical (t : VarType) : sCategorical <:+: t.str ↔ ∃ k, t = .categorical k := by
  cases t with
  | categorical k =>
    simp only [VarType.str, VarType.categorical.injEq, exists_eq', iff_true]
    exact ⟨[], ':' :: natStr k, by simp⟩
  | _ => simp only [VarType.str, reduceCtorEq, exists_false, iff_false]; decide

theorem natStr_not_space {n : ℕ} {c : Char} (h : c ∈ natStr n) : c.isWhitespace = false := by
  have h1 := natStr_digit h
  by_contra hw
  rw [Bool.not_eq_false] at hw
  simp only [Char.isWhitespace, Bool.or_eq_true, decide_eq_true_eq, or_assoc] at hw
  rcases hw with rfl | rfl | rfl | rfl <;> revert h1 <;> decide

theorem dropWhile_none {α : Type} {p : α → Bool} {l : List α} (h : ∀ a ∈ l, p a = false) : l.dropWhile p = l := by
  cases l with
  | nil => rfl
  | cons a l => rw [List.dropWhile_cons, h a List.mem_cons_self]; simp

theorem strip_natStr (n : ℕ) : strip (natStr n) = natStr n := by
  unfold strip
  rw [dropWhile_none fun c hc => natStr_not_space hc,
    dropWhile_none fun c hc => natStr_not_space (List.mem_reverse.1 hc), List.reverse_reverse]

theorem digitsOk_digits {s : Str} (h : ∀ c ∈ s, c.isDigit = true) (b : Bool) (hs : s ≠ [] ∨ b = true) :
    digitsOk b s = true := by
  induction s generalizing b with
  | nil => simpa [digitsOk] using hs
  | cons c s ih =>
    rw [digitsOk.eq_def]
    simp only
    rw [if_pos (h c List.mem_cons_self)]
    exact ih (fun c hc => h c (List.mem_cons_of_mem _ hc)) true (Or.inr rfl)

theorem unsigned_natStr (n : ℕ) : unsigned (natStr n) = some n := by
  unfold unsigned
  rw [if_pos (digitsOk_digits (fun c hc => natStr_digit hc) _ (Or.inl (natStr_ne_nil n))),
    List.filter_eq_self.2 fun c hc => natStr_digit hc, natStr, Nat.ofDigitChars_ten_toDigits]

theorem pyIntZ_natStr (n : ℕ) : pyIntZ (natStr n) = some (n : ℤ) := by
  unfold pyIntZ
  rw [strip_natStr]
  split
  · rename_i t h
    have : '-' ∈ natStr n := by rw [h]; exact List.mem_cons_self
    have := natStr_digit this
    exact absurd this (by decide)
  · rename_i t h
    have : '+' ∈ natStr n := by rw [h]; exact List.mem_cons_self
    have := natStr_digit this
    exact absurd this (by decide)
  · rw [unsigned_natStr]
    rfl

theorem cardinality_categorical (k : ℕ) : cardinality (VarType.categorical k).str = .ok (k : ℤ) := by
  have h : split [':'] (VarType.categorical k).str = [sCategorical, natStr k] := by
    have h1 : (VarType.categorical k).str = sCategorical ++ [':'] ++ natStr k := by
      simp [VarType.str]
    have h2 : ':' ∉ natStr k := by
      intro h
      have := natStr_digit h
      revert this
      decide
    rw [h1, show [':'] = [':'] from rfl, split_append (by decide), split_none h2]
  unfold cardinality
  rw [h]
  simp only [List.getElem?_cons_succ, List.getElem?_cons_zero, pyIntZ_natStr]

/-! ### The constructor -/

section
variable {N : Type} [DecidableEq N] {fmt : N → ℕ → N}

/-- The variables of a kind. -/
def kind (p : VarType → Bool) (sch : List (N × VarType)) : List N := (sch.filter fun e => p e.2).map (·.1)

/-- The categorical variables with their number of categories. -/
def cats (sch : List (N × VarType)) : List (N × ℕ) :=
  sch.filterMap fun e => match e.2 with
    | .categorical k => some (e.1, k)
    | _ => none

omit [DecidableEq N] in
theorem varsOf_written {x : Str} {p : VarType → Bool} (h : ∀ t : VarType, x <:+: t.str ↔ p t = true)
    (sch : List (N × VarType)) : varsOf (written sch) x = kind p sch := by
  unfold varsOf written kind
  rw [List.filter_map, List.map_map]
  simp only [Function.comp_def, h, Bool.decide_eq_true]

omit [DecidableEq N] in
theorem catCards_written (sch : List (N × VarType)) :
    catCards (written sch) = .ok ((cats sch).map fun e => (e.1, (e.2 : ℤ))) := by
  induction sch with
  | nil => rfl
  | cons e sch ih =>
    obtain ⟨v, t⟩ := e
    change catCards ((v, t.str) :: written sch) = _
    rw [catCards]
    cases t with
    | categorical k =>
      rw [if_pos ((infix_categorical _).2 ⟨k, rfl⟩), cardinality_categorical, ih]
      rfl
    | _ =>
      rw [if_neg (by rw [infix_categorical]; rintro ⟨k, hk⟩; cases hk), ih]
      rfl

def isBinary : VarType → Bool | .binary => true | _ => false
def isContinuous : VarType → Bool | .continuous => true | _ => false
def isCount : VarType → Bool | .count => true | _ => false
def isCategorical : VarType → Bool | .categorical _ => true | _ => false

omit [DecidableEq N] in
theorem varsOf_binary (sch : List (N × VarType)) : varsOf (written sch) sBinary = kind isBinary sch :=
  varsOf_written (fun t => by rw [infix_binary]; cases t <;> simp [isBinary]) sch

omit [DecidableEq N] in
theorem varsOf_continuous (sch : List (N × VarType)) :
    varsOf (written sch) sContinuous = kind isContinuous sch :=
  varsOf_written (fun t => by rw [infix_continuous]; cases t <;> simp [isContinuous]) sch

omit [DecidableEq N] in
theorem varsOf_count (sch : List (N × VarType)) : varsOf (written sch) sCount = kind isCount sch :=
  varsOf_written (fun t => by rw [infix_count]; cases t <;> simp [isCount]) sch

omit [DecidableEq N] in
theorem varsOf_categorical (sch : List (N × VarType)) :
    varsOf (written sch) sCategorical = kind isCategorical sch :=
  varsOf_written (fun t => by rw [infix_categorical]; cases t <;> simp [isCategorical]) sch

omit [DecidableEq N] in
theorem kind_categorical (sch : List (N × VarType)) : kind isCategorical sch = (cats sch).map (·.1) := by
  induction sch with
  | nil => rfl
  | cons e sch ih =>
    obtain ⟨v, t⟩ := e
    cases t <;> simpa [kind, cats, isCategorical] using ih

/-- The features of the categorical variables with their variable. -/
def catFeatures (fmt : N → ℕ → N) (cs : List (N × ℕ)) : List (N × N) :=
  cs.flatMap fun e => (List.range e.2).map fun i => (fmt e.1 i, e.1)

/-- All features. -/
def feats (fmt : N → ℕ → N) (sch : List (N × VarType)) : List N :=
  kind isBinary sch ++ kind isContinuous sch ++ kind isCount sch ++ (catFeatures fmt (cats sch)).map (·.1)

theorem feats_perm (sch : List (N × VarType)) :
    (sch.flatMap fun e => e.2.features fmt e.1).Perm (feats fmt sch) := by
  rw [List.perm_iff_count]
  intro a
  induction sch with
  | nil => rfl
  | cons e sch ih =>
    obtain ⟨v, t⟩ := e
    rw [List.flatMap_cons, List.count_append, ih]
    unfold feats
    have heta : (fun x => fmt v x) = fmt v := rfl
    cases t <;> simp [kind, cats, isBinary, isContinuous, isCount, VarType.features, catFeatures,
      List.count_append, List.count_cons, List.flatMap_cons, List.map_append, Function.comp_def, heta] <;> omega

theorem vars_perm (sch : List (N × VarType)) :
    (sch.map (·.1)).Perm ((kind isContinuous sch ++ kind isBinary sch ++ kind isCount sch) ++ (cats sch).map (·.1)) := by
  rw [List.perm_iff_count]
  intro a
  induction sch with
  | nil => rfl
  | cons e sch ih =>
    obtain ⟨v, t⟩ := e
    rw [List.map_cons, List.count_cons, ih]
    cases t <;> simp [kind, cats, isBinary, isContinuous, isCount,
      List.count_append, List.count_cons, List.map_append] <;> omega

theorem filter_catFeatures {cs : List (N × ℕ)} (hn : (cs.map (·.1)).Nodup) {u : N} {k : ℕ} (h : (u, k) ∈ cs) :
    (catFeatures fmt cs).filter (fun e => e.2 = u) = (List.range k).map fun i => (fmt u i, u) := by
  have key : ∀ (v : N) (k : ℕ), ((List.range k).map fun i => (fmt v i, v)).filter (fun e => e.2 = u) =
      if v = u then (List.range k).map fun i => (fmt v i, v) else [] := by
    intro v k
    split
    · rename_i h
      rw [List.filter_eq_self]
      intro e he
      obtain ⟨i, -, rfl⟩ := List.mem_map.1 he
      simp [h]
    · rename_i h
      rw [List.filter_eq_nil_iff]
      intro e he
      obtain ⟨i, -, rfl⟩ := List.mem_map.1 he
      simp [h]
  have none : ∀ cs : List (N × ℕ), u ∉ cs.map (·.1) → (catFeatures fmt cs).filter (fun e => e.2 = u) = [] := by
    intro cs
    induction cs with
    | nil => intro _; rfl
    | cons c cs ih =>
      intro h
      rw [List.map_cons, List.mem_cons, not_or] at h
      change ((_ ++ catFeatures fmt cs).filter _) = _
      rw [List.filter_append, ih h.2, key, if_neg (Ne.symm h.1), List.append_nil]
  induction cs with
  | nil => simp at h
  | cons c cs ih =>
    rw [List.map_cons, List.nodup_cons] at hn
    change ((_ ++ catFeatures fmt cs).filter _) = _
    rw [List.filter_append, key]
    rcases List.mem_cons.1 h with rfl | h
    · rw [if_pos rfl, none _ hn.1, List.append_nil]
    · have : c.1 ≠ u := by
        intro hc
        exact hn.1 (List.mem_map.2 ⟨_, h, hc.symm⟩)
      rw [if_neg this, ih hn.2 h, List.nil_append]

theorem get?_zip_range {l : List N} (h : l.Nodup) (f : N) :
    Dict.get? (l.zip (List.range l.length)) f = if f ∈ l then some (l.idxOf f) else none := by
  have hk : (l.zip (List.range l.length)).map (·.1) = l := List.map_fst_zip (by simp)
  split
  · rename_i hf
    refine Dict.get?_of_mem (by rw [hk]; exact h) ?_
    have hlt := List.idxOf_lt_length_of_mem hf
    rw [List.mem_iff_getElem]
    refine ⟨l.idxOf f, by simpa using hlt, ?_⟩
    simp [List.getElem_zip]
  · rename_i hf
    rw [Dict.get?_eq_none, hk]
    exact hf

theorem create_eq {sch : List (N × VarType)} (h : Distinct fmt sch) (order : List Str) :
    create fmt order (written sch) = .ok
      { variableTypeDict := order.map fun x => (x, varsOf (written sch) x)
        catFteVarDict := catFeatures fmt (cats sch)
        featureList := feats fmt sch
        fteIndexDict := (feats fmt sch).zip (List.range (feats fmt sch).length)
        varIndicesDict := ((kind isContinuous sch ++ kind isBinary sch ++ kind isCount sch).map fun v =>
            (v, [(feats fmt sch).idxOf v])) ++
          (cats sch).map fun e => (e.1, (List.range e.2).map fun i => (feats fmt sch).idxOf (fmt e.1 i)) } := by
  obtain ⟨hk, hf⟩ := h
  have hvars := (vars_perm sch).nodup_iff.1 hk
  have hcat : ((cats sch).map (·.1)).Nodup := (List.nodup_append.1 hvars).2.1
  have hfe : (feats fmt sch).Nodup := (feats_perm sch).nodup_iff.1 hf
  have hcf : ((catFeatures fmt (cats sch)).map (·.1)).Nodup := (List.nodup_append.1 hfe).2.1
  have e1 : Dict.ofList ((cats sch).map fun e => (e.1, (e.2 : ℤ))) = (cats sch).map fun e => (e.1, (e.2 : ℤ)) :=
    Dict.ofList_eq (by simpa [Function.comp_def] using hcat)
  have e2 : (((cats sch).map fun e => (e.1, (e.2 : ℤ))).flatMap fun e =>
      (List.range e.2.toNat).map fun i => (fmt e.1 i, e.1)) = catFeatures fmt (cats sch) := by
    rw [List.flatMap_map]
    simp [catFeatures]
  have e3 : Dict.ofList (catFeatures fmt (cats sch)) = catFeatures fmt (cats sch) := Dict.ofList_eq hcf
  have hz : ((feats fmt sch).zip (List.range (feats fmt sch).length)).map (·.1) = feats fmt sch :=
    List.map_fst_zip (by simp)
  have e4 : Dict.ofList ((feats fmt sch).zip (List.range (feats fmt sch).length)) =
      (feats fmt sch).zip (List.range (feats fmt sch).length) := Dict.ofList_eq (by rw [hz]; exact hfe)
  have e5 : ∀ f ∈ feats fmt sch, (Dict.get? ((feats fmt sch).zip (List.range (feats fmt sch).length)) f).getD 0 =
      (feats fmt sch).idxOf f := by
    intro f hf
    rw [get?_zip_range hfe, if_pos hf]
    rfl
  have e6 : ((cats sch).map (·.1)).map (fun k => (k, ((catFeatures fmt (cats sch)).filter fun e => e.2 = k).map
      fun e => (Dict.get? ((feats fmt sch).zip (List.range (feats fmt sch).length)) e.1).getD 0)) =
      (cats sch).map fun e => (e.1, (List.range e.2).map fun i => (feats fmt sch).idxOf (fmt e.1 i)) := by
    rw [List.map_map]
    refine List.map_congr_left fun e he => ?_
    simp only [Function.comp_apply]
    rw [filter_catFeatures hcat he, List.map_map]
    congr 1
    refine List.map_congr_left fun i hi => ?_
    refine e5 _ ?_
    refine List.mem_append_right _ (List.mem_map.2 ⟨(fmt e.1 i, e.1), ?_, rfl⟩)
    exact List.mem_flatMap.2 ⟨e, he, List.mem_map.2 ⟨i, hi, rfl⟩⟩
  have e7 : ((kind isContinuous sch ++ kind isBinary sch ++ kind isCount sch).map fun v =>
      (v, [(Dict.get? ((feats fmt sch).zip (List.range (feats fmt sch).length)) v).getD 0])) =
      (kind isContinuous sch ++ kind isBinary sch ++ kind isCount sch).map fun v =>
        (v, [(feats fmt sch).idxOf v]) := by
    refine List.map_congr_left fun v hv => ?_
    rw [e5]
    unfold feats
    simp only [List.mem_append] at hv ⊢
    tauto
  unfold create
  rw [catCards_written]
  simp only
  rw [e1, e2, e3, varsOf_binary, varsOf_continuous, varsOf_count, varsOf_categorical, kind_categorical]
  change Except.ok (Mapper.mk _ _ (feats fmt sch) (Dict.ofList ((feats fmt sch).zip (List.range (feats fmt sch).length))) _) = _
  rw [e4]
  change Except.ok (Mapper.mk _ _ _ _ (Dict.update (Dict.ofList ((kind isContinuous sch ++ kind isBinary sch ++ kind isCount sch).map fun v =>
      (v, [(Dict.get? (Dict.ofList ((feats fmt sch).zip (List.range (feats fmt sch).length))) v).getD 0])))
      (Dict.ofList (((cats sch).map (·.1)).map (fun k => (k, ((catFeatures fmt (cats sch)).filter fun e => e.2 = k).map
      fun e => (Dict.get? (Dict.ofList ((feats fmt sch).zip (List.range (feats fmt sch).length))) e.1).getD 0)))))) = _
  rw [e4, e6, e7, Dict.ofList_eq, Dict.ofList_eq, Dict.update_eq_append]
  · simpa [Function.comp_def] using hvars
  · simpa [Function.comp_def] using hcat
  · have := (List.nodup_append.1 hvars).1
    simpa [Function.comp_def] using this

theorem get?_map_order {order : List Str} (hn : order.Nodup) {x : Str} (hx : x ∈ order) (f : Str → List N) :
    Dict.get? (order.map fun x => (x, f x)) x = some (f x) :=
  Dict.get?_of_mem (by simpa [Function.comp_def] using hn) (List.mem_map.2 ⟨x, hx, rfl⟩)

theorem permissible_nodup : permissible.Nodup := by decide

omit [DecidableEq N] in
theorem mem_varsOf {sch : List (N × VarType)} {order : List Str} (ho : order.Perm permissible) (v : N) :
    v ∈ (order.map fun x => (x, varsOf (written sch) x)).flatMap (·.2) ↔ v ∈ sch.map (·.1) := by
  rw [List.flatMap_map, List.mem_flatMap]
  simp only
  constructor
  · rintro ⟨x, -, hv⟩
    unfold varsOf written at hv
    simp only [List.mem_map, List.mem_filter] at hv ⊢
    obtain ⟨e, ⟨⟨e', he', rfl⟩, -⟩, rfl⟩ := hv
    exact ⟨e', he', rfl⟩
  · intro hv
    obtain ⟨⟨v, t⟩, he, rfl⟩ := List.mem_map.1 hv
    cases t with
    | binary => exact ⟨sBinary, ho.mem_iff.2 (by decide), by
        rw [varsOf_binary]; exact List.mem_map.2 ⟨_, List.mem_filter.2 ⟨he, rfl⟩, rfl⟩⟩
    | continuous => exact ⟨sContinuous, ho.mem_iff.2 (by decide), by
        rw [varsOf_continuous]; exact List.mem_map.2 ⟨_, List.mem_filter.2 ⟨he, rfl⟩, rfl⟩⟩
    | count => exact ⟨sCount, ho.mem_iff.2 (by decide), by
        rw [varsOf_count]; exact List.mem_map.2 ⟨_, List.mem_filter.2 ⟨he, rfl⟩, rfl⟩⟩
    | categorical k => exact ⟨sCategorical, ho.mem_iff.2 (by decide), by
        rw [varsOf_categorical]; exact List.mem_map.2 ⟨_, List.mem_filter.2 ⟨he, rfl⟩, rfl⟩⟩

theorem varsOf_perm {sch : List (N × VarType)} {order : List Str} (ho : order.Perm permissible) :
    ((order.map fun x => (x, varsOf (written sch) x)).flatMap (·.2)).Perm (sch.map (·.1)) := by
  rw [List.flatMap_map]
  refine (ho.flatMap_right _).trans ?_
  simp only [permissible, List.flatMap_cons, List.flatMap_nil, List.append_nil]
  rw [varsOf_binary, varsOf_continuous, varsOf_count, varsOf_categorical, kind_categorical]
  refine List.Perm.trans ?_ (vars_perm sch).symm
  rw [List.perm_iff_count]
  intro a
  simp only [List.count_append]
  omega

/-- What the accessors return for a schema with distinct names. -/
structure Facts (fmt : N → ℕ → N) (sch : List (N × VarType)) (m : Mapper N) : Prop where
  vars : ∀ v, v ∈ variableList m ↔ v ∈ sch.map (·.1)
  cat : ∀ v, v ∈ ofType m sCategorical ↔ ∃ k, (v, VarType.categorical k) ∈ sch
  indices : ∀ v t, (v, t) ∈ sch → Dict.get? m.varIndicesDict v = some ((t.features fmt v).map m.featureList.idxOf)
  features : (sch.flatMap fun e => e.2.features fmt e.1).Perm m.featureList
  index : ∀ f, Dict.get? m.fteIndexDict f = if f ∈ m.featureList then some (m.featureList.idxOf f) else none
  names : ∀ v k, (v, VarType.categorical k) ∈ sch →
    (m.catFteVarDict.filter fun e => e.2 = v).map (·.1) = (List.range k).map (fmt v)
  nVars : nVariables m = sch.length

omit [DecidableEq N] in
theorem mem_cats {sch : List (N × VarType)} {v : N} {k : ℕ} : (v, k) ∈ cats sch ↔ (v, VarType.categorical k) ∈ sch := by
  unfold cats
  rw [List.mem_filterMap]
  constructor
  · rintro ⟨⟨u, t⟩, he, h⟩
    cases t <;> simp at h
    obtain ⟨rfl, rfl⟩ := h
    exact he
  · intro h
    exact ⟨_, h, rfl⟩

theorem create_facts {sch : List (N × VarType)} (h : Distinct fmt sch) {order : List Str}
    (ho : order.Perm permissible) : ∃ m, create fmt order (written sch) = .ok m ∧ Facts fmt sch m := by
  refine ⟨_, create_eq h order, ?_⟩
  have hvars := (vars_perm sch).nodup_iff.1 h.1
  have hkeys : (((kind isContinuous sch ++ kind isBinary sch ++ kind isCount sch).map fun v =>
      (v, [(feats fmt sch).idxOf v])) ++ (cats sch).map fun e =>
        (e.1, (List.range e.2).map fun i => (feats fmt sch).idxOf (fmt e.1 i))).map (·.1) =
      (kind isContinuous sch ++ kind isBinary sch ++ kind isCount sch) ++ (cats sch).map (·.1) := by
    simp [Function.comp_def]
  constructor
  · exact fun v => mem_varsOf ho v
  · intro v
    unfold ofType
    rw [get?_map_order (ho.nodup_iff.2 permissible_nodup) (ho.mem_iff.2 (by decide)), Option.getD_some,
      varsOf_categorical, kind_categorical, List.mem_map]
    constructor
    · rintro ⟨⟨u, k⟩, hu, rfl⟩
      exact ⟨k, mem_cats.1 hu⟩
    · rintro ⟨k, hk⟩
      exact ⟨(v, k), mem_cats.2 hk, rfl⟩
  · intro v t hv
    refine Dict.get?_of_mem (by rw [hkeys]; exact hvars) ?_
    rw [List.mem_append]
    have hnon : ∀ p : VarType → Bool, p t = true → v ∈ kind p sch :=
      fun p hp => List.mem_map.2 ⟨(v, t), List.mem_filter.2 ⟨hv, hp⟩, rfl⟩
    cases t with
    | categorical k =>
      right
      refine List.mem_map.2 ⟨(v, k), mem_cats.2 hv, ?_⟩
      simp [VarType.features, Function.comp_def]
    | binary =>
      left
      exact List.mem_map.2 ⟨v, by simp [hnon isBinary rfl], rfl⟩
    | continuous =>
      left
      exact List.mem_map.2 ⟨v, by simp [hnon isContinuous rfl], rfl⟩
    | count =>
      left
      exact List.mem_map.2 ⟨v, by simp [hnon isCount rfl], rfl⟩
  · exact feats_perm sch
  · exact get?_zip_range ((feats_perm sch).nodup_iff.1 h.2)
  · intro v k hv
    rw [filter_catFeatures (List.nodup_append.1 hvars).2.1 (mem_cats.2 hv), List.map_map]
    rfl
  · have := (varsOf_perm (sch := sch) ho).length_eq
    rw [List.length_map] at this
    exact this

theorem map_idxOf {l : List N} (h : l.Nodup) : l.map l.idxOf = List.range l.length := by
  refine List.ext_getElem (by simp) fun i h1 h2 => ?_
  rw [List.getElem_map, List.getElem_range, h.idxOf_getElem]

/-- **C50**: for a schema with distinct names, the indices of the variables are a partition of the positions
of the features; a categorical variable has as many as it has categories, any other has one. -/
theorem indices_partition {sch : List (N × VarType)} (h : Distinct fmt sch) {order : List Str}
    (ho : order.Perm permissible) : ∃ m, create fmt order (written sch) = .ok m ∧ ∃ idx : N → List ℕ,
      (∀ v t, (v, t) ∈ sch → getIndices m v false = .ok (.list (idx v)) ∧
        (idx v).length = match t with | .categorical k => k | _ => 1) ∧
      (sch.flatMap fun e => idx e.1).Perm (List.range (nFeatures m)) ∧ nVariables m = sch.length ∧
      ∀ v sq, v ∉ sch.map (·.1) → getIndices m v sq = .error .valueError := by
  obtain ⟨m, hm, F⟩ := create_facts h ho
  have hfe := F.features.nodup_iff.1 h.2
  refine ⟨m, hm, fun v => (Dict.get? m.varIndicesDict v).getD [], ?_, ?_, F.nVars, ?_⟩
  · intro v t hv
    have h1 := F.indices v t hv
    refine ⟨?_, ?_⟩
    · unfold getIndices
      rw [if_pos ((F.vars v).2 (List.mem_map.2 ⟨_, hv, rfl⟩)), if_neg (by simp)]
      simp only [h1, Option.getD_some]
    · simp only [h1, Option.getD_some]
      cases t <;> simp [VarType.features]
  · have h1 : (sch.flatMap fun e => (Dict.get? m.varIndicesDict e.1).getD []) =
        (sch.flatMap fun e => e.2.features fmt e.1).map m.featureList.idxOf := by
      rw [List.map_flatMap]
      refine List.flatMap_congr fun e he => ?_
      rw [F.indices e.1 e.2 he]
      rfl
    rw [h1]
    refine (F.features.map _).trans ?_
    rw [map_idxOf hfe]
    rfl
  · intro v sq hv
    unfold getIndices
    rw [if_neg (by rw [F.vars]; exact hv)]

theorem getElem?_idxOf {l : List N} {f : N} (h : f ∈ l) : l[l.idxOf f]? = some f := by
  have hlt := List.idxOf_lt_length_of_mem h
  rw [List.getElem?_eq_getElem hlt, List.getElem_idxOf]

/-- **C51**: names and indices of features round-trip. -/
theorem features_roundtrip {sch : List (N × VarType)} (h : Distinct fmt sch) {order : List Str}
    (ho : order.Perm permissible) : ∃ m, create fmt order (written sch) = .ok m ∧
      -- the features are those of the variables
      (∀ f, f ∈ m.featureList ↔ ∃ v t, (v, t) ∈ sch ∧ f ∈ t.features fmt v) ∧
      -- the index of the feature at position `i` is `i`
      (∀ i f, m.featureList[i]? = some f ↔ getFeatureIndex m f = .ok i) ∧
      -- a categorical variable is not a feature, unless it is named like one; other objects are unknown
      (∀ f, f ∉ m.featureList → getFeatureIndex m f = .error (if f ∈ sch.map (·.1) then .valueError else .keyError)) ∧
      -- the features of a categorical variable are at its indices, in order
      (∀ v k, (v, .categorical k) ∈ sch → ∀ sq, ∃ l, getIndices m v sq = .ok (.list l) ∧
        getFeatureNames m v = .inr ((List.range k).map (fmt v)) ∧
        l.map (fun i => m.featureList[i]?) = (List.range k).map fun i => some (fmt v i)) ∧
      -- any other variable is its own feature
      (∀ v t, (v, t) ∈ sch → (∀ k, t ≠ .categorical k) → ∃ i, getIndices m v true = .ok (.one i) ∧
        getIndices m v false = .ok (.list [i]) ∧ getFeatureNames m v = .inl v ∧ m.featureList[i]? = some v) := by
  obtain ⟨m, hm, F⟩ := create_facts h ho
  have hfe := F.features.nodup_iff.1 h.2
  have hmem : ∀ f, f ∈ m.featureList ↔ ∃ v t, (v, t) ∈ sch ∧ f ∈ t.features fmt v := by
    intro f
    rw [← F.features.mem_iff, List.mem_flatMap]
    constructor
    · rintro ⟨e, he, hf⟩
      exact ⟨e.1, e.2, he, hf⟩
    · rintro ⟨v, t, he, hf⟩
      exact ⟨(v, t), he, hf⟩
  have huniq : ∀ {v t t'}, (v, t) ∈ sch → (v, t') ∈ sch → t = t' := by
    intro v t t' h1 h2
    have h3 := Dict.get?_of_mem h.1 h1
    rw [Dict.get?_of_mem h.1 h2] at h3
    exact (Option.some.inj h3).symm
  refine ⟨m, hm, hmem, ?_, ?_, ?_, ?_⟩
  · intro i f
    unfold getFeatureIndex
    rw [F.index]
    by_cases hf : f ∈ m.featureList
    · rw [if_neg (by simp [hf]), if_pos hf]
      simp only [Except.ok.injEq]
      constructor
      · intro hi
        obtain ⟨hlt, rfl⟩ := List.getElem?_eq_some_iff.1 hi
        exact hfe.idxOf_getElem i hlt
      · rintro rfl
        exact getElem?_idxOf hf
    · rw [if_neg hf]
      constructor
      · intro hi
        exact absurd (List.mem_of_getElem? hi) hf
      · intro hi
        split at hi <;> cases hi
  · intro f hf
    unfold getFeatureIndex
    rw [F.index, if_neg hf]
    simp only [F.vars, hf, not_false_eq_true, and_true]
    split <;> rfl
  · intro v k hv sq
    refine ⟨((VarType.categorical k).features fmt v).map m.featureList.idxOf, ?_, ?_, ?_⟩
    · unfold getIndices
      rw [if_pos ((F.vars v).2 (List.mem_map.2 ⟨_, hv, rfl⟩)), if_neg, F.indices _ _ hv]
      rintro ⟨-, hn⟩
      exact hn ((F.cat v).2 ⟨k, hv⟩)
    · unfold getFeatureNames
      rw [if_neg (by rw [not_not, F.cat]; exact ⟨k, hv⟩), F.names v k hv]
    · rw [VarType.features, List.map_map, List.map_map]
      refine List.map_congr_left fun i hi => ?_
      exact getElem?_idxOf ((hmem _).2 ⟨v, _, hv, List.mem_map.2 ⟨i, hi, rfl⟩⟩)
  · intro v t hv ht
    have hcat : v ∉ ofType m sCategorical := by
      rw [F.cat]
      rintro ⟨k, hk⟩
      exact ht k (huniq hv hk)
    have hfeat : t.features fmt v = [v] := by
      cases t with
      | categorical k => exact absurd rfl (ht k)
      | _ => rfl
    have hvm := (F.vars v).2 (List.mem_map.2 ⟨_, hv, rfl⟩)
    refine ⟨m.featureList.idxOf v, ?_, ?_, ?_, ?_⟩
    · unfold getIndices
      rw [if_pos hvm, if_pos ⟨rfl, hcat⟩, F.indices _ _ hv, hfeat]
      rfl
    · unfold getIndices
      rw [if_pos hvm, if_neg (by simp), F.indices _ _ hv, hfeat]
      rfl
    · unfold getFeatureNames
      rw [if_pos hcat]
    · exact getElem?_idxOf ((hmem v).2 ⟨v, t, hv, by rw [hfeat]; simp⟩)

end

end Verif.Mapper
