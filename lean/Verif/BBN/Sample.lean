import Verif.BBN.PropsTree

/-!
# Model of `BBN.draw_samples`
-/

namespace Verif.BBN

section
variable {V S K : Type} [LinearOrder V] [DecidableEq S] [Add K] [Mul K] [Div K] [Zero K] [One K]
  [DecidableEq K] [LT K] [DecidableLT K]

/-- Insertion of a pair into a list sorted by its first components. -/
def insertKey (p : V × S) : List (V × S) → List (V × S)
  | [] => [p]
  | q :: l => if p.1 ≤ q.1 then p :: q :: l else q :: insertKey p l

/-- `tuple(sorted(sample.items()))`: `ebaybbn/bbn.py:169`.  The names are distinct, so the states
are never compared. -/
def sampleKey (sample : List (V × S)) : List (V × S) := sample.foldr insertKey []

/-- The loop building `cumulative_density`: `ebaybbn/bbn.py:179-180`; `a` is the last sum so far. -/
def cumulativeFrom (a : K) : List (S × K) → List (S × K)
  | [] => []
  | (s, p) :: l => (s, a + p) :: cumulativeFrom (a + p) l

/-- `cumulative_density`: `ebaybbn/bbn.py:178-180`. -/
def cumulative : List (S × K) → List (S × K)
  | [] => []
  | (s, p) :: l => (s, p) :: cumulativeFrom p l

/-- `while r > cumulative_density[i][1]: i += 1`, then the state at `i`:
`ebaybbn/bbn.py:182-185`. -/
def scan (r : K) : List (S × K) → Except Err S
  | [] => .error .indexError
  | (s, c) :: l => if c < r then scan r l else .ok s

/-- What is kept of a result: its entries in the order of the dict. -/
abbrev Result (V S K : Type) := List ((V × S) × K)

/-- `result_cache`. -/
abbrev Cache (V S K : Type) := List (List (V × S) × Result V S K)

/-- The randomness of one step: `pick` decides `random.choice`, `r` is the value of
`random.random()`. -/
structure Draw (K : Type) where
  pick : ℕ
  r : K

/-- Look up the result for a sample or compute it: `ebaybbn/bbn.py:169-172`. -/
def cachedQuery (nd : Nondet V) (dom : V → List S) (nodes : List (Node V S K))
    (cache : Cache V S K) (sample : List (V × S)) : Except Err (Cache V S K × Result V S K) :=
  match cache.lookup (sampleKey sample) with
  | some res => .ok (cache, res)
  | none =>
    match query nd dom nodes sample with
    | .error err => .error err
    | .ok res => .ok ((sampleKey sample, res) :: cache, res)

/-- One turn of the inner loop: `ebaybbn/bbn.py:165-185`.  `random.choice` of an empty list raises
`IndexError`. -/
def drawStep (nd : Nondet V) (dom : V → List S) (nodes : List (Node V S K)) (d : Draw K)
    (cache : Cache V S K) (sample : List (V × S)) : Except Err (Cache V S K × List (V × S)) :=
  let open_ := nodes.filter fun n => n.var ∉ sample.map Prod.fst
  match open_[d.pick % open_.length]? with
  | none => .error .indexError
  | some n =>
    match cachedQuery nd dom nodes cache sample with
    | .error err => .error err
    | .ok (cache, res) =>
      let density := (res.filter (·.1.1 = n.var)).map fun m => (m.1.2, m.2)
      match scan d.r (cumulative density) with
      | .error err => .error err
      | .ok s => .ok (cache, sample ++ [(n.var, s)])

/-- The inner loop, drawing one sample: `ebaybbn/bbn.py:164-185`.  `rand` is the random source from
this point on.  The loop is bounded by the number of nodes. -/
def drawLoop (nd : Nondet V) (dom : V → List S) (nodes : List (Node V S K)) :
    ℕ → (ℕ → Draw K) → Cache V S K → List (V × S) → Except Err (Cache V S K × List (V × S))
  | 0, _, cache, sample =>
    if sample.length < nodes.length then .error .diverges else .ok (cache, sample)
  | fuel + 1, rand, cache, sample =>
    if sample.length < nodes.length then
      match drawStep nd dom nodes (rand 0) cache sample with
      | .error err => .error err
      | .ok (cache, sample) => drawLoop nd dom nodes fuel (fun i => rand (i + 1)) cache sample
    else .ok (cache, sample)

/-- One sample: `ebaybbn/bbn.py:163-186`. -/
def drawOne (nd : Nondet V) (dom : V → List S) (nodes : List (Node V S K)) (rand : ℕ → Draw K)
    (cache : Cache V S K) (ev : List (V × S)) : Except Err (Cache V S K × List (V × S)) :=
  drawLoop nd dom nodes nodes.length rand cache ev

/-- The outer loop: `ebaybbn/bbn.py:162-187`.  Sample `k` uses the random source `rand k`. -/
def drawMany (nd : Nondet V) (dom : V → List S) (nodes : List (Node V S K)) (ev : List (V × S)) :
    ℕ → (ℕ → ℕ → Draw K) → Cache V S K → Except Err (List (List (V × S)))
  | 0, _, _ => .ok []
  | n + 1, rand, cache =>
    match drawOne nd dom nodes (rand 0) cache ev with
    | .error err => .error err
    | .ok (cache, s) =>
      match drawMany nd dom nodes ev n (fun k => rand (k + 1)) cache with
      | .error err => .error err
      | .ok ss => .ok (s :: ss)

/-- `BBN.draw_samples(query, n)`: `ebaybbn/bbn.py:157-187`. -/
def drawSamples (nd : Nondet V) (dom : V → List S) (nodes : List (Node V S K)) (ev : List (V × S))
    (n : ℕ) (rand : ℕ → ℕ → Draw K) : Except Err (List (List (V × S))) :=
  drawMany nd dom nodes ev n rand []

end

end Verif.BBN
