import Verif.Mapper.Model

/-!
# Specification of variables and their features
-/

namespace Verif.Mapper

open Verif.Str

/-- The documented types of variables. -/
inductive VarType
  | binary | continuous | count
  | categorical (k : ℕ)
  deriving DecidableEq

/-- How a type is written. -/
def VarType.str : VarType → Str
  | .binary => sBinary
  | .continuous => sContinuous
  | .count => sCount
  | .categorical k => (sCategorical ++ [':']) ++ natStr k

/-- The features of a variable: the variable itself, or one feature for every category. -/
def VarType.features {N : Type} (fmt : N → ℕ → N) (v : N) : VarType → List N
  | .categorical k => (List.range k).map (fmt v)
  | _ => [v]

/-- A schema as written by the user. -/
def written {N : Type} (sch : List (N × VarType)) : List (N × Str) := sch.map fun e => (e.1, e.2.str)

/-- Every variable has one type, and no two features have the same name. -/
def Distinct {N : Type} (fmt : N → ℕ → N) (sch : List (N × VarType)) : Prop :=
  (sch.map (·.1)).Nodup ∧ (sch.flatMap fun e => e.2.features fmt e.1).Nodup

/-- For variables that are strings, `"{}_{}".format(v, i)`. -/
def strFmt (v : Str) (i : ℕ) : Str := v ++ '_' :: natStr i

end Verif.Mapper
