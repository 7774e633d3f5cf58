import Verif.Generators.Blocks
import Verif.Generators.SemSpec
import Verif.Mapper.PropsSchema

/-!
# Lemmas about the generators of data
-/

namespace Verif.Generators

open Verif.Mapper Verif.Str

section
variable {N : Type} [DecidableEq N] {n : ℕ}

/-- The schema with documented types. -/
def schOf (nodes : List N) (ty : N → VarType) : List (N × VarType) := nodes.map fun v => (v, ty v)

/-- The positions of the features of a variable. -/
def idxOfVar (fmt : N → ℕ → N) (ty : N → VarType) (m : Mapper N) (v : N) : List ℕ :=
  ((ty v).features fmt v).map m.featureList.idxOf

omit [DecidableEq N] in
theorem mem_schOf {nodes : List N} {ty : N → VarType} {v : N} {t : VarType} :
    (v, t) ∈ schOf nodes ty ↔ v ∈ nodes ∧ t = ty v := by
  unfold schOf
  rw [List.mem_map]
  constructor
  · rintro ⟨u, hu, h⟩
    obtain ⟨rfl, rfl⟩ := Prod.mk.inj h
    exact ⟨hu, rfl⟩
  · rintro ⟨hv, rfl⟩
    exact ⟨v, hv, rfl⟩

omit [DecidableEq N] in
theorem schOf_keys (nodes : List N) (ty : N → VarType) : (schOf nodes ty).map (·.1) = nodes := by
  simp [schOf, Function.comp_def]

/-- What is used of the mapper. -/
structure MapperFacts (fmt : N → ℕ → N) (nodes : List N) (ty : N → VarType) (m : Mapper N) : Prop where
  indices : ∀ v ∈ nodes, getIndices m v false = .ok (.list (idxOfVar fmt ty m v))
  list : ∀ vs : List N, (∀ v ∈ vs, v ∈ nodes) → getIndicesList m vs = .ok (vs.flatMap (idxOfVar fmt ty m))
  dict : ∀ v ∈ nodes, Dict.get? m.varIndicesDict v = some (idxOfVar fmt ty m v)
  features : (nodes.flatMap fun v => (ty v).features fmt v).Perm m.featureList
  nodup : m.featureList.Nodup
  binary : ∀ v ∈ nodes, v ∈ ofType m sBinary ↔ ty v = .binary
  continuous : ∀ v ∈ nodes, v ∈ ofType m sContinuous ↔ ty v = .continuous
  count : ∀ v ∈ nodes, v ∈ ofType m sCount ↔ ty v = .count
  categorical : ∀ v ∈ nodes, v ∈ ofType m sCategorical ↔ ∃ k, ty v = .categorical k
  columns : (m.varIndicesDict.map fun e => e.2.length).sum = nFeatures m

theorem ofType_of_isVarOfType {m : Mapper N} {v : N} {x : Str} (hx : x ∈ permissible) {b : Bool}
    (h : isVarOfType m v x = .ok b) : v ∈ ofType m x ↔ b = true := by
  unfold isVarOfType getVarOfType at h
  rw [if_neg (by simpa using hx)] at h
  simp only [Except.ok.injEq] at h
  rw [← h, decide_eq_true_eq]
  rfl

theorem create_mapperFacts {fmt : N → ℕ → N} {nodes : List N} {ty : N → VarType} (hd : Distinct fmt (schOf nodes ty))
    {types : List Str} (ht : types.Perm permissible) :
    ∃ m, create fmt types (written (schOf nodes ty)) = .ok m ∧ MapperFacts fmt nodes ty m := by
  obtain ⟨m, hm, F⟩ := create_facts hd ht
  obtain ⟨m', hm', hty, -⟩ := isVarOfType_correct hd ht
  rw [hm] at hm'
  obtain rfl := Except.ok.inj hm'
  have hdict : ∀ v ∈ nodes, Dict.get? m.varIndicesDict v = some (idxOfVar fmt ty m v) :=
    fun v hv => F.indices v (ty v) (mem_schOf.2 ⟨hv, rfl⟩)
  have hind : ∀ v ∈ nodes, getIndices m v false = .ok (.list (idxOfVar fmt ty m v)) := by
    intro v hv
    unfold getIndices
    rw [if_pos ((F.vars v).2 (by rw [schOf_keys]; exact hv)), if_neg (by simp)]
    simp only [hdict v hv]
  refine ⟨m, hm, hind, ?_, hdict, ?_, F.features.nodup_iff.1 hd.2, ?_, ?_, ?_, ?_, ?_⟩
  · intro vs hvs
    induction vs with
    | nil => rfl
    | cons v vs ih =>
      rw [getIndicesList, hind v (hvs v List.mem_cons_self)]
      simp only
      rw [ih fun u hu => hvs u (List.mem_cons_of_mem _ hu)]
      rfl
  · have := F.features
    rwa [schOf, List.flatMap_map] at this
  · intro v hv
    rw [ofType_of_isVarOfType (by decide) (hty v (ty v) (mem_schOf.2 ⟨hv, rfl⟩)).1, decide_eq_true_eq]
  · intro v hv
    rw [ofType_of_isVarOfType (by decide) (hty v (ty v) (mem_schOf.2 ⟨hv, rfl⟩)).2.1, decide_eq_true_eq]
  · intro v hv
    rw [ofType_of_isVarOfType (by decide) (hty v (ty v) (mem_schOf.2 ⟨hv, rfl⟩)).2.2.1, decide_eq_true_eq]
  · intro v hv
    rw [F.cat]
    simp only [mem_schOf, hv, true_and, eq_comm]
  · have hm'' := create_eq hd types
    rw [hm] at hm''
    have := Except.ok.inj hm''
    rw [this]
    simp [nFeatures, feats, catFeatures, Function.comp_def, List.length_flatMap]
    omega

theorem initSem_ok {fmt : N → ℕ → N} {g : SemGraph N} {ty : N → VarType} (hg : g.WF) (hd : Distinct fmt (schOf g.nodes ty))
    (ha : Verif.Graph.Acyclic g.pairs) {schema : Option (List (N × Str))} {defaultType : Str}
    (hs : Documented g.nodes schema defaultType ty) {types : List Str} (ht : types.Perm permissible) :
    ∃ m, initSem fmt types g schema defaultType = .ok m ∧ MapperFacts fmt g.nodes ty m := by
  obtain ⟨m, hm, F⟩ := create_mapperFacts hd ht
  refine ⟨m, ?_, F⟩
  unfold initSem
  rw [if_neg (by simpa using ha)]
  obtain ⟨t, rfl, htp⟩ := hs.default
  have hv : validateSchema g.nodes t.str schema = .ok (written (schOf g.nodes ty)) := by
    obtain ⟨r, hr, hn, hmem⟩ := (validateSchema_correct_partial g.nodes t.str schema).1
      ⟨(accepted_documented (t := t) (by cases t with
        | categorical k => exact htp k rfl
        | _ => trivial)).1, fun v hv => by
        have h1 := hs.given v hv
        have : usedType schema t.str v = (ty v).str := h1.1
        rw [this]
        refine accepted_documented ?_
        cases htv : ty v with
        | categorical k => exact h1.2 k htv
        | _ => trivial⟩
    rw [hr]
    unfold validateSchema at hr
    split at hr
    · cases hr
    · dsimp only at hr
      split at hr
      · cases hr
      · split at hr
        · cases hr
        · rw [Except.ok.injEq] at hr ⊢
          rw [← hr, Dict.ofList_eq (by simpa [Function.comp_def] using hg.nodes)]
          unfold written schOf
          rw [List.map_map]
          refine List.map_congr_left fun v hv => ?_
          have h1 := (hs.given v hv).1
          simp only [Function.comp_apply, Prod.mk.injEq, true_and]
          rw [← h1]
          cases schema <;> rfl
  simp only [hv]
  exact hm

/-- The columns of a variable, by type. -/
noncomputable def pureCols (D : SemDraws N n) (dist : Distributions) (noiseStd : ℝ) (v : N) (root : Bool) (mean : ℕ → Col n) :
    VarType → List (Col n)
  | .continuous => [fun r => mean 0 r + drawNoise D dist.continuous noiseStd root v 0 r]
  | .binary => [binaryLabels fun r => mean 0 r + drawNoise D dist.binary noiseStd root v 0 r]
  | .count =>
    [fun r => if D.zif v r < dist.count then 0 else
      (((samplePoisson 5000 (fun r => expRelu (if root then mean 0 r + D.eta v r else mean 0 r)) (D.poisson v) 5001).getD
        fun _ => 0) r : ℝ)]
  | .categorical k => (List.range k).map fun i r =>
      if argmax ((List.range k).map fun c => mean c r + drawNoise D dist.categorical noiseStd root v c r) = i then 1 else 0

/-- The settings are valid for a type. -/
def ValidFor (dist : Distributions) : VarType → Prop
  | .continuous => dist.continuous ∈ knownDistributions
  | .binary => dist.binary ∈ knownDistributions
  | .count => 0 ≤ dist.count ∧ dist.count ≤ 1
  | .categorical _ => dist.categorical ∈ knownDistributions

theorem idxOfVar_length (fmt : N → ℕ → N) (ty : N → VarType) (m : Mapper N) (v : N) :
    (idxOfVar fmt ty m v).length = ((ty v).features fmt v).length := by
  rw [idxOfVar, List.length_map]

theorem sampleVar_ok {fmt : N → ℕ → N} {nodes : List N} {ty : N → VarType} {m : Mapper N} (F : MapperFacts fmt nodes ty m)
    (D : SemDraws N n) {dist : Distributions} (noiseStd : ℝ) {v : N} (hv : v ∈ nodes) (root : Bool) (mean : ℕ → Col n)
    (h : ValidFor dist (ty v)) :
    sampleVar D dist noiseStd m v root (idxOfVar fmt ty m v).length mean = .ok (pureCols D dist noiseStd v root mean (ty v)) := by
  unfold sampleVar
  simp only [F.continuous v hv, F.binary v hv, F.count v hv, idxOfVar_length]
  cases ht : ty v with
  | continuous =>
    rw [ht] at h
    simp only [if_true]
    exact if_neg (not_not.2 h)
  | binary =>
    rw [ht] at h
    simp only [reduceCtorEq, if_false, if_true]
    exact if_neg (not_not.2 h)
  | count =>
    rw [ht] at h
    simp only [reduceCtorEq, if_false, if_true]
    rw [if_neg (by rintro (h1 | h1); exacts [absurd h.1 (not_le.2 h1), absurd h.2 (not_le.2 h1)])]
    rfl
  | categorical k =>
    rw [ht] at h
    have hc := (F.categorical v hv).2 ⟨k, ht⟩
    simp only [reduceCtorEq, if_false, if_pos hc]
    refine (if_neg (not_not.2 h)).trans ?_
    simp [VarType.features, pureCols]

theorem sampleVar_error {fmt : N → ℕ → N} {nodes : List N} {ty : N → VarType} {m : Mapper N} (F : MapperFacts fmt nodes ty m)
    (D : SemDraws N n) {dist : Distributions} (noiseStd : ℝ) {v : N} (hv : v ∈ nodes) (root : Bool) (k : ℕ) (mean : ℕ → Col n)
    (h : ¬ ValidFor dist (ty v)) : sampleVar D dist noiseStd m v root k mean = .error .valueError := by
  unfold sampleVar
  simp only [F.continuous v hv, F.binary v hv, F.count v hv]
  cases ht : ty v with
  | continuous =>
    rw [ht] at h
    simp only [if_true]
    exact if_pos h
  | binary =>
    rw [ht] at h
    simp only [reduceCtorEq, if_false, if_true]
    exact if_pos h
  | count =>
    rw [ht] at h
    simp only [reduceCtorEq, if_false, if_true]
    rw [if_pos (by by_contra hc; push Not at hc; exact h hc)]
  | categorical k =>
    rw [ht] at h
    have hc := (F.categorical v hv).2 ⟨k, ht⟩
    simp only [reduceCtorEq, if_false, if_pos hc]
    exact if_pos h

theorem pureCols_length (fmt : N → ℕ → N) (D : SemDraws N n) (dist : Distributions) (noiseStd : ℝ) (v : N) (root : Bool) (mean : ℕ → Col n)
    (t : VarType) : (pureCols D dist noiseStd v root mean t).length = (t.features fmt v).length := by
  cases t <;> simp [pureCols, VarType.features]

end

end Verif.Generators
