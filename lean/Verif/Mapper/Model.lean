import Verif.Str.Dict
import Verif.Str.Basic
import Mathlib.Data.Int.Notation

/-!
# Model of `causalnex.structure.categorical_variable_mapper`

`N` are the variables and features (hashable objects); `fmt v i` is the string `"{}_{}".format(v, i)`
as such an object.
-/

namespace Verif.Mapper

open Verif.Str

/-- Exceptions. -/
inductive Err
  | valueError | indexError | keyError
  deriving DecidableEq, Repr

/-- `s.strip()` (ASCII white space). -/
def strip (s : Str) : Str :=
  ((s.dropWhile Char.isWhitespace).reverse.dropWhile Char.isWhitespace).reverse

/-- Decimal digits, with single underscores between them; the flag tells whether a digit came just
before. -/
def digitsOk : Bool → Str → Bool
  | b, [] => b
  | b, c :: s => if c.isDigit then digitsOk true s else if c = '_' && b then
      (match s with
        | [] => false
        | c' :: _ => c'.isDigit && digitsOk false s)
    else false

/-- `int` of a string without a sign. -/
def unsigned (s : Str) : Option ℕ :=
  if digitsOk false s then some (Nat.ofDigitChars 10 (s.filter Char.isDigit) 0) else none

/-- `int(s)` for a string; `none` is `ValueError` (simplification: digits and white space of other
alphabets are not looked at). -/
def pyIntZ (s : Str) : Option ℤ :=
  match strip s with
  | '-' :: t => (unsigned t).map fun n => -(n : ℤ)
  | '+' :: t => (unsigned t).map fun n => (n : ℤ)
  | t => (unsigned t).map fun n => (n : ℤ)

/-- `"binary"`. -/
def sBinary : Str := ['b', 'i', 'n', 'a', 'r', 'y']

/-- `"categorical"`. -/
def sCategorical : Str := ['c', 'a', 't', 'e', 'g', 'o', 'r', 'i', 'c', 'a', 'l']

/-- `"continuous"`. -/
def sContinuous : Str := ['c', 'o', 'n', 't', 'i', 'n', 'u', 'o', 'u', 's']

/-- `"count"`. -/
def sCount : Str := ['c', 'o', 'u', 'n', 't']

/-- `PERMISSIBLE_TYPES`: `structure/categorical_variable_mapper.py:52`. -/
def permissible : List Str := [sBinary, sCategorical, sContinuous, sCount]

section
variable {N : Type} [DecidableEq N]

/-- `[k for k, v in schema.items() if x in v]`: `structure/categorical_variable_mapper.py:59`. -/
def varsOf (schema : List (N × Str)) (x : Str) : List N :=
  (schema.filter fun e => x <:+: e.2).map (·.1)

/-- `int(v.split(":")[1])`: `structure/categorical_variable_mapper.py:68`. -/
def cardinality (v : Str) : Except Err ℤ :=
  match (split [':'] v)[1]? with
  | none => .error .indexError
  | some s => match pyIntZ s with
    | none => .error .valueError
    | some n => .ok n

/-- `cat_card_dict`: `structure/categorical_variable_mapper.py:66-72`. -/
def catCards : List (N × Str) → Except Err (List (N × ℤ))
  | [] => .ok []
  | (k, v) :: schema =>
    if sCategorical <:+: v then
      match cardinality v with
      | .error e => .error e
      | .ok c => match catCards schema with
        | .error e => .error e
        | .ok l => .ok ((k, c) :: l)
    else catCards schema

/-- The attributes of a `VariableFeatureMapper`. -/
structure Mapper (N : Type) where
  variableTypeDict : List (Str × List N)
  catFteVarDict : List (N × N)
  featureList : List N
  fteIndexDict : List (N × ℕ)
  varIndicesDict : List (N × List ℕ)

/-- `__init__`: `structure/categorical_variable_mapper.py:55-113`.  `order` is the order in which the set
`PERMISSIBLE_TYPES` is iterated (any); `fteIndexDict` has all features of `featureList`, so the look-ups do
not fail. -/
def create (fmt : N → ℕ → N) (order : List Str) (schema : List (N × Str)) : Except Err (Mapper N) :=
  match catCards schema with
  | .error e => .error e
  | .ok cards =>
    let catCard := Dict.ofList cards
    let catFteVar := Dict.ofList (catCard.flatMap fun e => (List.range e.2.toNat).map fun i => (fmt e.1 i, e.1))
    let features := varsOf schema sBinary ++ varsOf schema sContinuous ++
      varsOf schema sCount ++ catFteVar.map (·.1)
    let fteIndex := Dict.ofList (features.zip (List.range features.length))
    let index := fun f => (Dict.get? fteIndex f).getD 0
    let varIndices := Dict.ofList ((varsOf schema sContinuous ++ varsOf schema sBinary ++
      varsOf schema sCount).map fun v => (v, [index v]))
    let varIndices := Dict.update varIndices (Dict.ofList ((varsOf schema sCategorical).map fun k =>
      (k, (catFteVar.filter fun e => e.2 = k).map fun e => index e.1)))
    .ok
      { variableTypeDict := order.map fun x => (x, varsOf schema x)
        catFteVarDict := catFteVar
        featureList := features
        fteIndexDict := fteIndex
        varIndicesDict := varIndices }

/-- `variable_list`: `structure/categorical_variable_mapper.py:115-120`. -/
def variableList (m : Mapper N) : List N := m.variableTypeDict.flatMap (·.2)

/-- `get_var_of_type`: `structure/categorical_variable_mapper.py:122-139`. -/
def getVarOfType (m : Mapper N) (dataType : Str) : Except Err (List N) :=
  if dataType ∉ permissible then .error .valueError
  else .ok ((Dict.get? m.variableTypeDict dataType).getD [])

/-- `is_var_of_type`: `structure/categorical_variable_mapper.py:141-153`. -/
def isVarOfType (m : Mapper N) (var : N) (dataType : Str) : Except Err Bool :=
  match getVarOfType m dataType with
  | .error e => .error e
  | .ok l => .ok (decide (var ∈ l))

/-- The variables of a type, for a permissible type. -/
def ofType (m : Mapper N) (x : Str) : List N := (Dict.get? m.variableTypeDict x).getD []

/-- `get_categorical_indices`: `structure/categorical_variable_mapper.py:155-162`. -/
def getCategoricalIndices (m : Mapper N) : List (List ℕ) :=
  (ofType m sCategorical).map fun v => (Dict.get? m.varIndicesDict v).getD []

/-- What `get_indices` returns. -/
inductive Idx
  | one (i : ℕ)
  | list (l : List ℕ)
  deriving DecidableEq

/-- `get_indices` for one variable: `structure/categorical_variable_mapper.py:186-199`. -/
def getIndices (m : Mapper N) (var : N) (squeeze : Bool) : Except Err Idx :=
  if var ∈ variableList m then
    if squeeze ∧ var ∉ ofType m sCategorical then
      match (Dict.get? m.varIndicesDict var) with
      | none => .error .keyError
      | some l => match l with
        | [] => .error .indexError
        | i :: _ => .ok (.one i)
    else match (Dict.get? m.varIndicesDict var) with
      | none => .error .keyError
      | some l => .ok (.list l)
  else .error .valueError

/-- `get_indices` for a list, a set or an iterator of variables (simplification: not of lists):
`structure/categorical_variable_mapper.py:190-195`. -/
def getIndicesList (m : Mapper N) : List N → Except Err (List ℕ)
  | [] => .ok []
  | v :: vs => match getIndices m v false with
    | .error e => .error e
    | .ok (.one i) => match getIndicesList m vs with
      | .error e => .error e
      | .ok l => .ok (i :: l)
    | .ok (.list l') => match getIndicesList m vs with
      | .error e => .error e
      | .ok l => .ok (l' ++ l)

/-- `get_feature_index`: `structure/categorical_variable_mapper.py:201-217`. -/
def getFeatureIndex (m : Mapper N) (feature : N) : Except Err ℕ :=
  if feature ∈ variableList m ∧ feature ∉ m.featureList then .error .valueError
  else match Dict.get? m.fteIndexDict feature with
    | none => .error .keyError
    | some i => .ok i

/-- `get_feature_names(var)`: `structure/categorical_variable_mapper.py:232-236`; the result is a single
object or a list. -/
def getFeatureNames (m : Mapper N) (var : N) : N ⊕ List N :=
  if var ∉ ofType m sCategorical then .inl var
  else .inr ((m.catFteVarDict.filter fun e => e.2 = var).map (·.1))

/-- `n_variables`: `structure/categorical_variable_mapper.py:238-244`. -/
def nVariables (m : Mapper N) : ℕ := (variableList m).length

/-- `n_features`: `structure/categorical_variable_mapper.py:246-252`. -/
def nFeatures (m : Mapper N) : ℕ := m.featureList.length

/-- `re.match(r"^categorical:[1-9]+[0-9]*", v) is not None`:
`structure/categorical_variable_mapper.py:311`.  A prefix is enough for a match, and one digit after the
colon is enough for the prefix. -/
def hasCardinality (v : Str) : Bool :=
  match (sCategorical ++ [':']).isPrefixOf v, v.drop 12 with
  | true, c :: _ => c.isDigit && c != '0'
  | _, _ => false

/-- `any(x in t for x in PERMISSIBLE_TYPES)`. -/
def knownType (t : Str) : Bool := permissible.any fun x => x <:+: t

/-- `validate_schema`: `structure/categorical_variable_mapper.py:255-322`. -/
def validateSchema (nodes : List N) (defaultType : Str) (schema : Option (List (N × Str))) :
    Except Err (List (N × Str)) :=
  if !knownType defaultType then .error .valueError
  else
    let schema := schema.getD []
    let schema := Dict.ofList (nodes.map fun k => (k, (Dict.get? schema k).getD defaultType))
    if !schema.all fun e => knownType e.2 then .error .valueError
    else if schema.any fun e => decide (sCategorical <:+: e.2) && !hasCardinality e.2 then
      .error .valueError
    else .ok schema

end

end Verif.Mapper
