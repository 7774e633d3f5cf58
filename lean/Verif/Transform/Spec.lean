import Verif.Transform.Model

/-!
# Specification of the transformer for time series
-/

namespace Verif.Transform

section
variable {C T K : Type}

/-- A data frame: as many index entries as rows, as many column types as columns. -/
def Frame.WF (t : Frame C T K) : Prop := t.index.length = t.rows.length ∧ t.dtypes.length = t.cols.length

/-- `pieces` are what remains of the observations (times and values) when they are cut at the gaps:
put together they are the observations; inside a piece times increase by at most one; between
neighbouring pieces by more; no piece is empty (unless there are no observations). -/
structure IsCutting {α : Type} (obs : List (ℤ × α)) (pieces : List (List (ℤ × α))) : Prop where
  together : pieces.flatten = obs
  inside : ∀ q ∈ pieces, q.IsChain fun a b => b.1 - a.1 ≤ 1
  between : pieces.IsChain fun q q' => ∀ a ∈ q.getLast?, ∀ b ∈ q'.head?, 1 < b.1 - a.1
  nonempty : obs ≠ [] → [] ∉ pieces

/-- The rows for one piece: for each position `t` with `p` predecessors the observation and, side by
side, the observations 1, 2, …, `p` positions before. -/
def windows (p : ℕ) (piece : List (List K)) : List (List K × List K) :=
  (List.range (piece.length - p)).map fun j =>
    (piece.getD (j + p) [], (List.range p).flatMap fun k => piece.getD (j + p - (k + 1)) [])

/-- The rows for one data frame, in terms of time: for each observation for which there are also
observations 1, 2, …, `p` time steps before it, the observation and, side by side, these. -/
def lagged (p : ℕ) (obs : List (ℤ × List K)) : List (List K × List K) :=
  obs.filterMap fun o =>
    ((List.range p).mapM fun k : ℕ => obs.lookup (o.1 - ((k : ℤ) + 1))).map fun ls => (o.2, ls.flatten)

/-- The observations of a data frame, restricted to some columns: times and values. -/
def Frame.obs (t : Frame C T K) (columns : List C) : List (ℤ × List K) :=
  t.index.zip (t.rows.map fun r => columns.map r)

/-- What a list of data frames has to satisfy to be accepted: there is at least one; all elements are
data frames, with numeric columns only, the columns and column types of the first, an index of
integers that does not decrease; and all columns known from an earlier fit. -/
def Good [DecidableEq C] (numeric : T → Bool) (columns : Option (List C)) (ts : List (Entry C T K)) :
    Prop :=
  ∃ df rest, ts = .frame df :: rest ∧ ∀ e ∈ ts, ∃ t, e = .frame t ∧
    (∀ d ∈ t.dtypes, numeric d = true) ∧ t.cols = df.cols ∧ t.dtypes = df.dtypes ∧
    t.index.Pairwise (· ≤ ·) ∧ t.indexInt = true ∧ ∀ cs, columns = some cs → ∀ c ∈ cs, c ∈ t.cols

end

end Verif.Transform
