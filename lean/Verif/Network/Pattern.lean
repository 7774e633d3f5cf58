import Verif.Network.Model
import Verif.Str.Basic

/-!
# Model of the column pattern of `predict_probability` with incomplete data

The name of the node is put into a regular expression as it is, so characters of the name that are special in regular
expressions keep their special meaning.
-/

namespace Verif.Network

open Verif.Str

/-- One element of a compiled pattern: a character, or `.`, which matches every character but a line break. -/
inductive Tok
  | lit (c : Char)
  | any
  deriving DecidableEq, Repr

/-- Does a character match an element of the pattern? (`re`, external.) -/
def Tok.fits : Tok → Char → Bool
  | .lit a, c => a == c
  | .any, c => c != '\n'

/-- The elements of the part of `re.compile("^{node}_[0-9]+$")` that comes from the name: `network/network.py:574` (`re`,
external).  Parentheses delimit groups and match nothing; `depth` is the number of open groups.  Simplification: the other
special characters `* + ? [ ] { } | ^ $ \` are not modelled, see `specials`. -/
def compileName : ℕ → Str → Except Err (List Tok)
  | 0, [] => .ok []
  | _ + 1, [] => .error .reError
  | depth, c :: l =>
    if c = '(' then compileName (depth + 1) l
    else if c = ')' then if depth = 0 then .error .reError else compileName (depth - 1) l
    else match compileName depth l with
      | .error e => .error e
      | .ok ts => .ok ((if c = '.' then .any else .lit c) :: ts)

/-- What is left of a text after the elements of the pattern have matched its beginning. -/
def matchToks : List Tok → Str → Option Str
  | [], c => some c
  | _ :: _, [] => none
  | t :: ts, a :: c => if t.fits a then matchToks ts c else none

/-- `_[0-9]+$`: `network/network.py:574`.  `$` also matches before a line break at the end (`re`, external). -/
def matchCode : Str → Bool
  | '_' :: ds =>
    let ds := if ds.getLast? = some '\n' then ds.dropLast else ds
    !ds.isEmpty && ds.all Char.isDigit
  | _ => false

/-- `pattern = re.compile("^{node}_[0-9]+$")` and `pattern.match`: `network/network.py:574-577`. -/
def namePattern (n : Str) : Except Err (Str → Bool) :=
  match compileName 0 n with
  | .error e => .error e
  | .ok ts => .ok fun c => match matchToks ts c with
    | some rest => matchCode rest
    | none => false

end Verif.Network
