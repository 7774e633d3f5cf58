import Verif.Mapper.Props

/-!
# Properties of schemas (C52), names that are strings, and concrete cases
-/

namespace Verif.Mapper

open Verif.Str

section
variable {N : Type} [DecidableEq N]

/-- The type used for a variable: the given one or the default. -/
def usedType (schema : Option (List (N × Str))) (defaultType : Str) (v : N) : Str :=
  ((schema.bind fun s => Dict.get? s v)).getD defaultType

/-- What is accepted as a type: it contains the name of a type, and if it contains `categorical`, it begins with
`categorical:` and a digit other than 0. -/
def Accepted (t : Str) : Prop :=
  (∃ x ∈ permissible, x <:+: t) ∧
    (sCategorical <:+: t → ∃ c s, t = (sCategorical ++ [':']) ++ c :: s ∧ c.isDigit = true ∧ c ≠ '0')

theorem hasCardinality_iff (v : Str) : hasCardinality v = true ↔
    ∃ c s, v = (sCategorical ++ [':']) ++ c :: s ∧ c.isDigit = true ∧ c ≠ '0' := by
  unfold hasCardinality
  constructor
  · intro h
    split at h
    · rename_i c s h1 h2
      rw [List.isPrefixOf_iff_prefix] at h1
      obtain ⟨w, rfl⟩ := h1
      rw [show (12 : ℕ) = (sCategorical ++ [':']).length from rfl, List.drop_left] at h2
      subst h2
      simp only [Bool.and_eq_true, bne_iff_ne, ne_eq] at h
      exact ⟨c, s, rfl, h⟩
    · cases h
  · rintro ⟨c, s, rfl, h1, h2⟩
    have : (sCategorical ++ [':']).isPrefixOf ((sCategorical ++ [':']) ++ c :: s) = true := by
      rw [List.isPrefixOf_iff_prefix]
      exact ⟨_, rfl⟩
    rw [this, show (12 : ℕ) = (sCategorical ++ [':']).length from rfl, List.drop_left]
    simp [h1, h2]

theorem knownType_iff (t : Str) : knownType t = true ↔ ∃ x ∈ permissible, x <:+: t := by
  unfold knownType
  rw [List.any_eq_true]
  simp

theorem mem_ofList_map {l : List N} {f : N → Str} {e : N × Str} :
    e ∈ Dict.ofList (l.map fun k => (k, f k)) ↔ e.1 ∈ l ∧ e.2 = f e.1 := by
  have hn := Dict.nodup_ofList (l.map fun k => (k, f k))
  constructor
  · intro h
    have := Dict.get?_of_mem hn h
    rw [Dict.get?_ofList_map] at this
    split at this
    · rename_i hm
      exact ⟨hm, (Option.some.inj this).symm⟩
    · cases this
  · rintro ⟨h1, h2⟩
    have := Dict.get?_ofList_map l f e.1
    rw [if_pos h1] at this
    have := Dict.mem_of_get? this
    rwa [← h2] at this

/-- **C52** (the part that holds): which schemas are accepted, and what is returned: every node with the
given type or the default.  Other errors than `ValueError` do not occur. -/
theorem validateSchema_correct_partial (nodes : List N) (d : Str) (schema : Option (List (N × Str))) :
    (((∃ x ∈ permissible, x <:+: d) ∧ ∀ v ∈ nodes, Accepted (usedType schema d v)) →
      ∃ r, validateSchema nodes d schema = .ok r ∧ (r.map (·.1)).Nodup ∧
        ∀ v t, (v, t) ∈ r ↔ v ∈ nodes ∧ t = usedType schema d v) ∧
    (¬ ((∃ x ∈ permissible, x <:+: d) ∧ ∀ v ∈ nodes, Accepted (usedType schema d v)) →
      validateSchema nodes d schema = .error .valueError) := by
  have hu : (fun k : N => (k, (Dict.get? (schema.getD []) k).getD d)) = fun k => (k, usedType schema d k) := by
    funext k
    unfold usedType
    cases schema <;> rfl
  unfold validateSchema
  by_cases hd : knownType d = true
  · simp only [hd, Bool.not_true, Bool.false_eq_true, if_false]
    rw [hu]
    by_cases hk : (Dict.ofList (nodes.map fun k => (k, usedType schema d k))).all fun e => knownType e.2
    · simp only [hk, Bool.not_true, Bool.false_eq_true, if_false]
      have hk' : ∀ v ∈ nodes, ∃ x ∈ permissible, x <:+: usedType schema d v := by
        intro v hv
        rw [List.all_eq_true] at hk
        exact (knownType_iff _).1 (hk (v, usedType schema d v) (mem_ofList_map.2 ⟨hv, rfl⟩))
      by_cases hc : (Dict.ofList (nodes.map fun k => (k, usedType schema d k))).any fun e =>
          decide (sCategorical <:+: e.2) && !hasCardinality e.2
      · rw [if_pos hc]
        refine ⟨?_, fun _ => rfl⟩
        rintro ⟨-, ha⟩
        exfalso
        rw [List.any_eq_true] at hc
        obtain ⟨e, he, h⟩ := hc
        obtain ⟨hm, h2⟩ := mem_ofList_map.1 he
        simp only [Bool.and_eq_true, decide_eq_true_eq, Bool.not_eq_true'] at h
        have := (ha _ hm).2 (by rw [← h2]; exact h.1)
        rw [← hasCardinality_iff, ← h2, h.2] at this
        cases this
      · rw [if_neg hc]
        refine ⟨fun _ => ⟨_, rfl, Dict.nodup_ofList _, fun v t => mem_ofList_map⟩, ?_⟩
        intro hn
        exfalso
        refine hn ⟨(knownType_iff d).1 hd, fun v hv => ⟨hk' v hv, fun hcat => ?_⟩⟩
        rw [List.any_eq_true] at hc
        rw [← hasCardinality_iff]
        by_contra hh
        exact hc ⟨(v, usedType schema d v), mem_ofList_map.2 ⟨hv, rfl⟩, by simp [hcat]; simpa using hh⟩
    · rw [if_pos (by simpa using hk)]
      refine ⟨?_, fun _ => rfl⟩
      rintro ⟨-, ha⟩
      exfalso
      apply hk
      rw [List.all_eq_true]
      intro e he
      obtain ⟨hm, h2⟩ := mem_ofList_map.1 he
      rw [h2, knownType_iff]
      exact (ha _ hm).1
  · rw [if_pos (by simpa using hd)]
    refine ⟨?_, fun _ => rfl⟩
    rintro ⟨h, -⟩
    exact absurd ((knownType_iff d).2 h) hd

/-- A documented type, with a cardinality that is not zero. -/
def VarType.Proper : VarType → Prop
  | .categorical k => k ≠ 0
  | _ => True

theorem natStr_head {k : ℕ} (hk : k ≠ 0) : ∃ c s, natStr k = c :: s ∧ c.isDigit = true ∧ c ≠ '0' := by
  have key : ∃ c s, natStr k = c :: s ∧ c ≠ '0' := by
    unfold natStr
    induction k using Nat.strongRecOn with
    | _ k ih =>
      rw [Nat.toDigits_eq_if (by decide)]
      split
      · rename_i hlt
        refine ⟨k.digitChar, [], rfl, ?_⟩
        obtain rfl | rfl | rfl | rfl | rfl | rfl | rfl | rfl | rfl : k = 1 ∨ k = 2 ∨ k = 3 ∨ k = 4 ∨ k = 5 ∨
          k = 6 ∨ k = 7 ∨ k = 8 ∨ k = 9 := by omega
        all_goals decide
      · obtain ⟨c, s, hs, hc⟩ := ih (k / 10) (by omega) (by omega)
        exact ⟨c, _, by rw [hs, List.cons_append], hc⟩
  obtain ⟨c, s, hs, hc⟩ := key
  exact ⟨c, s, hs, natStr_digit (by rw [hs]; exact List.mem_cons_self), hc⟩

theorem accepted_documented {t : VarType} (h : t.Proper) : Accepted t.str := by
  cases t with
  | categorical k =>
    refine ⟨⟨sCategorical, by decide, (infix_categorical _).2 ⟨k, rfl⟩⟩, fun _ => ?_⟩
    obtain ⟨c, s, hs, h1, h2⟩ := natStr_head h
    exact ⟨c, s, by rw [VarType.str, hs], h1, h2⟩
  | binary => exact ⟨⟨sBinary, by decide, (infix_binary _).2 rfl⟩, fun h => by
      obtain ⟨k, hk⟩ := (infix_categorical _).1 h; cases hk⟩
  | continuous => exact ⟨⟨sContinuous, by decide, (infix_continuous _).2 rfl⟩, fun h => by
      obtain ⟨k, hk⟩ := (infix_categorical _).1 h; cases hk⟩
  | count => exact ⟨⟨sCount, by decide, (infix_count _).2 rfl⟩, fun h => by
      obtain ⟨k, hk⟩ := (infix_categorical _).1 h; cases hk⟩

theorem create_written_ok (fmt : N → ℕ → N) (order : List Str) (sch : List (N × VarType)) :
    ∃ m, create fmt order (written sch) = .ok m := by
  unfold create
  rw [catCards_written]
  exact ⟨_, rfl⟩

/-- **C52**: with documented types the schema is accepted and can be expanded. -/
theorem validateSchema_documented (fmt : N → ℕ → N) (order : List Str) {nodes : List N} {d : VarType}
    (hd : d.Proper) {schema : Option (List (N × Str))} {ty : N → VarType}
    (hty : ∀ v ∈ nodes, usedType schema d.str v = (ty v).str ∧ (ty v).Proper) :
    ∃ r, validateSchema nodes d.str schema = .ok r ∧ (r.map (·.1)).Nodup ∧
      (∀ v t, (v, t) ∈ r ↔ v ∈ nodes ∧ t = (ty v).str) ∧ ∃ m, create fmt order r = .ok m := by
  obtain ⟨r, hr, hn, hm⟩ := (validateSchema_correct_partial nodes d.str schema).1
    ⟨(accepted_documented hd).1, fun v hv => by rw [(hty v hv).1]; exact accepted_documented (hty v hv).2⟩
  have hm' : ∀ v t, (v, t) ∈ r ↔ v ∈ nodes ∧ t = (ty v).str := by
    intro v t
    rw [hm]
    constructor
    · rintro ⟨h1, h2⟩; exact ⟨h1, by rw [h2, (hty v h1).1]⟩
    · rintro ⟨h1, h2⟩; exact ⟨h1, by rw [h2, (hty v h1).1]⟩
  refine ⟨r, hr, hn, hm', ?_⟩
  have hw : r = written (r.map fun e => (e.1, ty e.1)) := by
    unfold written
    rw [List.map_map]
    conv_lhs => rw [← List.map_id r]
    refine List.map_congr_left fun e he => ?_
    exact Prod.ext rfl ((hm' e.1 e.2).1 he).2
  rw [hw]
  exact create_written_ok fmt order _

end

/-! ### The other accessors -/

section
variable {N : Type} [DecidableEq N] {fmt : N → ℕ → N}

/-- The indices of several variables are those of the variables, one after the other; with an unknown
variable there is a `ValueError`. -/
theorem getIndicesList_correct {sch : List (N × VarType)} (h : Distinct fmt sch) {order : List Str}
    (ho : order.Perm permissible) : ∃ m, create fmt order (written sch) = .ok m ∧ ∃ idx : N → List ℕ,
      (∀ v ∈ sch.map (·.1), getIndices m v false = .ok (.list (idx v))) ∧
      (∀ vs : List N, (∀ v ∈ vs, v ∈ sch.map (·.1)) → getIndicesList m vs = .ok (vs.flatMap idx)) ∧
      (∀ vs : List N, ¬ (∀ v ∈ vs, v ∈ sch.map (·.1)) → getIndicesList m vs = .error .valueError) ∧
      getCategoricalIndices m = (kind isCategorical sch).map idx := by
  obtain ⟨m, hm, F⟩ := create_facts h ho
  have hidx : ∀ v ∈ sch.map (·.1), getIndices m v false = .ok (.list ((Dict.get? m.varIndicesDict v).getD [])) := by
    intro v hv
    obtain ⟨⟨v, t⟩, he, rfl⟩ := List.mem_map.1 hv
    unfold getIndices
    rw [if_pos ((F.vars v).2 hv), if_neg (by simp), F.indices v t he]
    rfl
  refine ⟨m, hm, _, hidx, ?_, ?_, ?_⟩
  · intro vs hvs
    induction vs with
    | nil => rfl
    | cons v vs ih =>
      rw [getIndicesList, hidx v (hvs v List.mem_cons_self), ih fun v hv => hvs v (List.mem_cons_of_mem _ hv)]
      rfl
  · intro vs hvs
    induction vs with
    | nil => exact absurd (by simp) hvs
    | cons v vs ih =>
      rw [getIndicesList]
      by_cases hv : v ∈ sch.map (·.1)
      · rw [hidx v hv, ih]
        intro hn
        refine hvs fun u hu => ?_
        rcases List.mem_cons.1 hu with rfl | hu
        · exact hv
        · exact hn u hu
      · have : getIndices m v false = .error .valueError := by
          unfold getIndices
          rw [if_neg (by rw [F.vars]; exact hv)]
        rw [this]
  · have hm' := hm
    rw [create_eq h order] at hm'
    cases hm'
    unfold getCategoricalIndices ofType
    rw [get?_map_order (ho.nodup_iff.2 permissible_nodup) (ho.mem_iff.2 (by decide)), varsOf_categorical]
    rfl

/-- `is_var_of_type` tells the type, and raises exactly for unknown types. -/
theorem isVarOfType_correct {sch : List (N × VarType)} (h : Distinct fmt sch) {order : List Str}
    (ho : order.Perm permissible) : ∃ m, create fmt order (written sch) = .ok m ∧
      (∀ v t, (v, t) ∈ sch → isVarOfType m v sBinary = .ok (decide (t = .binary)) ∧
        isVarOfType m v sContinuous = .ok (decide (t = .continuous)) ∧
        isVarOfType m v sCount = .ok (decide (t = .count)) ∧
        isVarOfType m v sCategorical = .ok (match t with | .categorical _ => true | _ => false)) ∧
      ∀ v x, x ∉ permissible → isVarOfType m v x = .error .valueError := by
  refine ⟨_, create_eq h order, ?_, ?_⟩
  · intro v t hv
    have huniq : ∀ t', (v, t') ∈ sch ↔ t = t' := by
      intro t'
      constructor
      · intro h2
        have h3 := Dict.get?_of_mem h.1 hv
        rw [Dict.get?_of_mem h.1 h2] at h3
        exact (Option.some.inj h3).symm
      · rintro rfl; exact hv
    have key : ∀ (x : Str) (p : VarType → Bool), x ∈ permissible → varsOf (written sch) x = kind p sch →
        isVarOfType (N := N) ⟨order.map fun x => (x, varsOf (written sch) x), catFeatures fmt (cats sch),
          feats fmt sch, (feats fmt sch).zip (List.range (feats fmt sch).length),
          ((kind isContinuous sch ++ kind isBinary sch ++ kind isCount sch).map fun v =>
            (v, [(feats fmt sch).idxOf v])) ++
          (cats sch).map fun e => (e.1, (List.range e.2).map fun i => (feats fmt sch).idxOf (fmt e.1 i))⟩ v x =
        .ok (p t) := by
      intro x p hx hp
      unfold isVarOfType getVarOfType
      rw [if_neg (by simpa using hx), get?_map_order (ho.nodup_iff.2 permissible_nodup) (ho.mem_iff.2 hx), hp]
      simp only [Option.getD_some, Except.ok.injEq]
      have : v ∈ kind p sch ↔ p t = true := by
        unfold kind
        rw [List.mem_map]
        constructor
        · rintro ⟨⟨u, t'⟩, he, rfl⟩
          obtain ⟨h1, h2⟩ := List.mem_filter.1 he
          rw [(huniq t').1 h1]
          exact h2
        · intro hp
          exact ⟨(v, t), List.mem_filter.2 ⟨hv, hp⟩, rfl⟩
      simp [this]
    refine ⟨?_, ?_, ?_, ?_⟩
    · rw [key _ _ (by decide) (varsOf_binary sch)]
      cases t <;> simp [isBinary]
    · rw [key _ _ (by decide) (varsOf_continuous sch)]
      cases t <;> simp [isContinuous]
    · rw [key _ _ (by decide) (varsOf_count sch)]
      cases t <;> simp [isCount]
    · rw [key _ _ (by decide) (varsOf_categorical sch)]
      cases t <;> rfl
  · intro v x hx
    unfold isVarOfType getVarOfType
    rw [if_pos hx]

end

/-! ### Names that are strings -/

theorem strFmt_inj {u v : Str} {i j : ℕ} (h : strFmt u i = strFmt v j) : u = v ∧ i = j := by
  obtain ⟨h1, -, h3⟩ := append_natStr_inj (by decide) (by decide) h
  exact ⟨h1, h3⟩

/-- For names that are strings, the features of different categorical variables never clash; only a
variable of another type can be named like one. -/
theorem distinct_strings {sch : List (Str × VarType)} (hk : (sch.map (·.1)).Nodup)
    (hc : ∀ u k v t, (u, VarType.categorical k) ∈ sch → (v, t) ∈ sch → (∀ k, t ≠ .categorical k) →
      ∀ i < k, v ≠ strFmt u i) : Distinct strFmt sch := by
  refine ⟨hk, ?_⟩
  rw [List.nodup_flatMap]
  constructor
  · rintro ⟨v, t⟩ -
    cases t with
    | categorical k => exact List.nodup_range.map fun a b h => (strFmt_inj h).2
    | _ => simp [VarType.features]
  · have hp : sch.Pairwise fun a b => a.1 ≠ b.1 := List.pairwise_map.1 hk
    refine List.Pairwise.imp_of_mem ?_ hp
    rintro ⟨u, s⟩ ⟨v, t⟩ hu hv hne
    rw [Function.onFun, List.disjoint_left]
    intro x hx hy
    cases s with
    | categorical k =>
      obtain ⟨i, hi, rfl⟩ := List.mem_map.1 hx
      rw [List.mem_range] at hi
      cases t with
      | categorical l =>
        obtain ⟨j, hj, h⟩ := List.mem_map.1 hy
        exact hne (strFmt_inj h).1.symm
      | _ => exact hc u k v _ hu hv (by simp) i hi (List.mem_singleton.1 hy).symm
    | _ =>
      obtain rfl := List.mem_singleton.1 hx
      cases t with
      | categorical l =>
        obtain ⟨j, hj, h⟩ := List.mem_map.1 hy
        rw [List.mem_range] at hj
        exact hc v l _ _ hv hu (by simp) j hj h.symm
      | _ => exact hne (List.mem_singleton.1 hy)

/-! ### Concrete cases -/

namespace Witness

def A : Str := ['A']
def A0 : Str := ['A', '_', '0']

/-- A schema with distinct names; `A_0` is both a variable and a feature of `A`. -/
def sch : List (Str × VarType) := [(A, .categorical 2), (['B'], .count), (A0, .categorical 1), (['C'], .binary)]

theorem sch_distinct : Distinct strFmt sch := by
  refine distinct_strings (by decide) ?_
  intro u k v t hu hv ht i hi
  simp only [sch, List.mem_cons, Prod.mk.injEq, List.not_mem_nil, or_false, VarType.categorical.injEq,
    reduceCtorEq, and_false, false_or] at hu hv
  rcases hv with ⟨-, rfl⟩ | ⟨rfl, rfl⟩ | ⟨-, rfl⟩ | ⟨rfl, rfl⟩
  · exact absurd rfl (ht 2)
  · rcases hu with ⟨rfl, -⟩ | ⟨rfl, -⟩ <;> simp [strFmt, A, A0]
  · exact absurd rfl (ht 1)
  · rcases hu with ⟨rfl, -⟩ | ⟨rfl, -⟩ <;> simp [strFmt, A, A0]

example := indices_partition sch_distinct (List.Perm.refl permissible)

/-- The features in order. -/
example : (match create strFmt permissible (written sch) with
    | .ok m => m.featureList
    | .error _ => []) = [['C'], ['B'], A0, ['A', '_', '1'], ['A', '_', '0', '_', '0']] := by decide +kernel

/-- The categorical variable `A_0` is accepted as a feature: it is the first feature of `A`; `A` is not. -/
example : (match create strFmt permissible (written sch) with
    | .ok m => some (getFeatureIndex m A0, getFeatureIndex m A, getIndices m A0 true)
    | .error _ => none) = some (.ok 2, .error .valueError, .ok (.list [4])) := by decide +kernel

/-- With clashing names (`A_0` is binary and also a feature of `A`) two variables share an index, and a
column belongs to no variable: the indices are not a partition. -/
theorem clash_shares_index : ∃ (sch : List (Str × VarType)) (m : Mapper Str), (sch.map (·.1)).Nodup ∧
    create strFmt permissible (written sch) = .ok m ∧ nFeatures m = 3 ∧
    getIndices m A0 true = .ok (.one 1) ∧ getIndices m A false = .ok (.list [1, 2]) := by
  refine ⟨[(A, .categorical 2), (A0, .binary)], _, by decide, rfl, ?_, ?_, ?_⟩ <;> decide +kernel

/-- The type `categorical:3abc` passes the validation, and then cannot be expanded: the last part of C52 is
false. -/
theorem validated_not_expandable : ¬ ∀ (nodes : List Str) (d : Str) (schema : Option (List (Str × Str)))
    (r : List (Str × Str)), validateSchema nodes d schema = .ok r → ∃ m, create strFmt permissible r = .ok m := by
  intro h
  have hv : validateSchema [A] sContinuous (some [(A, sCategorical ++ [':', '3', 'a', 'b', 'c'])]) =
      .ok [(A, sCategorical ++ [':', '3', 'a', 'b', 'c'])] := by decide +kernel
  obtain ⟨m, hm⟩ := h _ _ _ _ hv
  have : (match create strFmt permissible [(A, sCategorical ++ [':', '3', 'a', 'b', 'c'])] with
    | .ok _ => true
    | .error _ => false) = false := by decide +kernel
  rw [hm] at this
  cases this

/-- An unknown type that contains the name of a type is accepted, and the variable is then taken to be of every
type whose name it contains. -/
theorem unknown_type_accepted : validateSchema [A] ['b', 'i', 'n', 'a', 'r', 'y', 'c', 'o', 'u', 'n', 't'] none =
      .ok [(A, ['b', 'i', 'n', 'a', 'r', 'y', 'c', 'o', 'u', 'n', 't'])] ∧
    (match create strFmt permissible [(A, ['b', 'i', 'n', 'a', 'r', 'y', 'c', 'o', 'u', 'n', 't'])] with
    | .ok m => m.featureList
    | .error _ => []) = [A, A] := by
  constructor <;> decide +kernel

/-- A cardinality with a leading zero is rejected. -/
example : validateSchema [A] sContinuous (some [(A, sCategorical ++ [':', '0', '3'])]) = .error .valueError := by
  decide +kernel

/-- Nodes without a type get the default; types of other nodes are left out. -/
example : validateSchema [A, A0] sBinary (some [(A0, sCount), (['Z'], sCount)]) = .ok [(A, sBinary), (A0, sCount)] := by
  decide +kernel

end Witness

end Verif.Mapper
