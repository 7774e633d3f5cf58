import Verif.BBN.Sum

/-!
# Model of `causalnex.ebaybbn` : exact inference by join-tree propagation

`V` is the type of variable names (ordered, as Python strings are), `S` the type of states,
`K` the type probabilities live in.  The program only uses its operations, so that it can be run with exact arithmetic (an
arbitrary linearly ordered field, `ℚ` in the examples) and with rounded arithmetic (`Verif.BBN.Rounding`).

Nondeterminism of the Python program is made explicit in `Nondet`: the iteration order of Python
`set`s of join-tree nodes and the order of separators with equal mass (which depends on
`__repr__` of a label list built from a `set`).  Theorems quantify over all of it.
-/

namespace Verif.BBN

/-- Everything that can go wrong at run time.  `diverges` marks a `while` loop that makes no
progress any more, i.e. runs forever. -/
inductive Err
  | indexError | keyError | valueError | attributeError | assertion | zeroDivision | diverges
  | variableNotInGraph | valueNotInDomain
  deriving DecidableEq, Repr

section Graphs
variable {V S K : Type} [LinearOrder V]

/-- A factor: a Python function with its argument names.
`ebaybbn/bbn.py:57-64` (`BBNNode`), `ebaybbn/utils.py:44-59` (`get_args`). -/
structure Factor (V S K : Type) where
  /-- `get_args(factor)` -/
  args : List V
  /-- the function itself, called positionally -/
  fn : List S → K

/-- A BBN node with the variable it introduces.
`ebaybbn/bbn.py:70-86` (`BBN.__init__` records `variable_name`). -/
structure Node (V S K : Type) extends Factor V S K where
  var : V

/-- One `for factor in factors` sweep of `get_original_factors`; `acc` is the dict
`original_factors` in insertion order.  `ebaybbn/utils.py:88-93`. -/
def originalPass (factors : List (Factor V S K)) (acc : List (Node V S K)) : List (Node V S K) :=
  factors.foldl (fun acc f =>
    match f.args.filter (fun a => a ∉ acc.map Node.var) with
    | [a] => acc ++ [⟨f, a⟩]
    | _ => acc) acc

/-- The `while` loop of `get_original_factors`.  A sweep that adds nothing would repeat forever.
`ebaybbn/utils.py:73-94`.  Simplification: the fuel argument bounds the number of sweeps; it is
started at `len(factors)`, and every productive sweep adds an entry. -/
def originalLoop (factors : List (Factor V S K)) :
    ℕ → List (Node V S K) → Except Err (List (Node V S K))
  | 0, acc => if acc.length < factors.length then .error .diverges else .ok acc
  | fuel + 1, acc =>
    if acc.length < factors.length then
      if (originalPass factors acc).length = acc.length then .error .diverges
      else originalLoop factors fuel (originalPass factors acc)
    else .ok acc

/-- `get_original_factors(factors)`: `ebaybbn/utils.py:73-94`. -/
def getOriginalFactors (factors : List (Factor V S K)) : Except Err (List (Node V S K)) :=
  originalLoop factors factors.length []

/-- The parents `build_bbn` connects a node to: the nodes introducing its other arguments.
`ebaybbn/bbn.py:757-765`.  Simplification: nodes are identified with the variable they
introduce. -/
def Node.parents (n : Node V S K) : List V := n.args.filter (· ≠ n.var)

/-! ### Undirected graphs -/

/-- An undirected graph: node names and neighbour sets.  `ebaybbn/graph.py:51-63`.
Simplification: neighbour lists are sets (their order is never observable). -/
structure UG (V : Type) where
  nodes : List V
  nbr : V → Finset V

/-- Append each of `a`, `b` to the other's neighbours. -/
def UG.connect (g : UG V) (a b : V) : UG V :=
  { g with nbr := fun v => g.nbr v ∪ (if v = a then {b} else ∅) ∪ (if v = b then {a} else ∅) }

/-- `itertools.combinations(l, 2)`. -/
def combos2 {α : Type} : List α → List (α × α)
  | [] => []
  | a :: l => l.map (fun b => (a, b)) ++ combos2 l

/-- `make_undirected_copy`: `ebaybbn/bbn.py:822-841`. -/
def undirectedCopy (nodes : List (Node V S K)) : UG V :=
  nodes.foldl (fun g n => n.parents.foldl (fun g p => g.connect n.var p) g)
    ⟨nodes.map Node.var, fun _ => ∅⟩

/-- `make_moralized_copy`: `ebaybbn/bbn.py:844-855`. -/
def moralizedCopy (gu : UG V) (nodes : List (Node V S K)) : UG V :=
  nodes.foldl (fun g n => (combos2 n.parents).foldl (fun g p => g.connect p.1 p.2) g) gu

/-- `priority_func`: number of arcs eliminating `v` would introduce.  `ebaybbn/bbn.py:858-878`
(the constant second component `2` is dropped). -/
def priorityFunc (g : UG V) (v : V) : ℕ :=
  ((combos2 (v :: (g.nbr v).sort (· ≤ ·))).filter (fun p => p.1 ∉ g.nbr p.2)).length

/-- `pq[0][2]` of `construct_priority_queue`: the node with the least `(priority, name)`.
`ebaybbn/bbn.py:881-886, 924-930`. -/
def pickMin (prio : V → ℕ) : List V → Option V
  | [] => none
  | v :: vs =>
    match pickMin prio vs with
    | none => some v
    | some w => if prio v < prio w ∨ (prio v = prio w ∧ v ≤ w) then some v else some w

/-- State of the `while True` loop of `triangulate`: the shrinking copy `gm_`, the graph `gm`
being filled in, the recorded cliques and the elimination ordering. -/
structure TriState (V : Type) where
  rem : UG V
  gm : UG V
  cliques : List (Finset V)
  order : List V

/-- `[v] + v.neighbours`: `ebaybbn/bbn.py:931`. -/
def UG.cluster (g : UG V) (v : V) : Finset V := insert v (g.nbr v)

/-- Connect every pair of the cluster: `ebaybbn/bbn.py:932-938`. Simplification: the pairwise
loop is written as one set update. -/
def UG.fill (g : UG V) (c : Finset V) : UG V :=
  { g with nbr := fun u => if u ∈ c then g.nbr u ∪ c.erase u else g.nbr u }

/-- Remove `v` and all references its neighbours hold to it: `ebaybbn/bbn.py:944-946`. -/
def UG.remove (g : UG V) (v : V) : UG V :=
  ⟨g.nodes.erase v, fun u => if u ∈ g.nbr v then (g.nbr u).erase v else g.nbr u⟩

/-- `record_cliques`: `ebaybbn/bbn.py:889-896`. -/
def recordClique (cliques : List (Finset V)) (c : Finset V) : List (Finset V) :=
  if cliques.any (fun d => decide (c ⊆ d)) then cliques else cliques ++ [c]

/-- One turn of the loop of `triangulate` for the selected node: `ebaybbn/bbn.py:930-947`. -/
def triStep (st : TriState V) (v : V) : TriState V :=
  let c := st.rem.cluster v
  { rem := (st.rem.fill c).remove v
    gm := st.gm.fill c
    cliques := recordClique st.cliques c
    order := st.order ++ [v] }

/-- The loop of `triangulate` (`ebaybbn/bbn.py:920-948`) for a priority function `prio`.  The
fuel is the number of nodes: each turn removes one. -/
def triLoop (prio : UG V → V → ℕ) : ℕ → TriState V → TriState V
  | 0, st => st
  | fuel + 1, st =>
    match pickMin (prio st.rem) st.rem.nodes with
    | none => st
    | some v => triLoop prio fuel (triStep st v)

/-- `triangulate(gm, priority_func)`: `ebaybbn/bbn.py:899-948`. -/
def triangulate (prio : UG V → V → ℕ) (gm : UG V) : TriState V :=
  triLoop prio gm.nodes.length ⟨gm, gm, [], []⟩

/-! ### Separators and the join tree -/

/-- The variables of clique number `i`. -/
def clq (cl : List (Finset V)) (i : ℕ) : Finset V := cl.getD i ∅

/-- `SepSet.label` / `variable_names` of a separator: `ebaybbn/bbn.py:608-613, 705-716`. -/
def label (cl : List (Finset V)) (e : ℕ × ℕ) : Finset V := clq cl e.1 ∩ clq cl e.2

/-- `SepSet.mass`: `ebaybbn/bbn.py:615-617`. -/
def mass (cl : List (Finset V)) (e : ℕ × ℕ) : ℕ := (label cl e).card

/-- `SepSet.cost`: `ebaybbn/bbn.py:619-630`. -/
def cost (cl : List (Finset V)) (e : ℕ × ℕ) : ℕ :=
  2 ^ (clq cl e.1).card + 2 ^ (clq cl e.2).card

/-- The candidate separators `S`: `ebaybbn/bbn.py:989-992`. -/
def sepsets (cl : List (Finset V)) : List (ℕ × ℕ) :=
  (combos2 (List.range cl.length)).filter (fun e => decide ((label cl e).Nonempty))

/-- The trees of the forest, each given by its clique nodes in order. -/
abbrev Forest := List (List ℕ)

/-- `SepSet.insertable`: `ebaybbn/bbn.py:632-646`. Object identity of trees is equality of their
(disjoint, nonempty) node lists. -/
def insertable (forest : Forest) (e : ℕ × ℕ) : Except Err Bool :=
  match forest.filter (fun t => e.1 ∈ t), forest.filter (fun t => e.2 ∈ t) with
  | [tx], [ty] => .ok (decide (tx ≠ ty))
  | _, _ => .error .assertion

/-- `SepSet.insert`: append the second tree to the first and drop it from the forest.
`ebaybbn/bbn.py:648-690`.  Only the clique nodes of the trees are kept in `Forest`; the separator
nodes are the inserted edges recorded by `joinLoop`. -/
def insertSep (forest : Forest) (e : ℕ × ℕ) : Forest :=
  match forest.filter (fun t => e.1 ∈ t), forest.filter (fun t => e.2 ∈ t) with
  | tx :: _, ty :: _ =>
    (forest.erase ty).map (fun t => if t = tx then tx ++ ty.filter (· ∉ tx) else t)
  | _, _ => forest

/-- `for candidate_sepset, _, _, _ in deco: if insertable …: insert …; break`:
`ebaybbn/bbn.py:999-1005`. -/
def tryInsert (forest : Forest) : List (ℕ × ℕ) → Except Err (Option ((ℕ × ℕ) × Forest))
  | [] => .ok none
  | e :: es =>
    match insertable forest e with
    | .error err => .error err
    | .ok true => .ok (some (e, insertSep forest e))
    | .ok false => tryInsert forest es

/-- Choices the Python program leaves open. -/
structure Nondet (V : Type) where
  /-- the result of `deco.sort(key=(-mass, cost, repr))` for a set of candidate separators;
  `repr` is a string built from the iteration order of a `set` -/
  sortS : List (Finset V) → List (ℕ × ℕ) → List (ℕ × ℕ)
  /-- iteration order of the set `neighbouring_cliques` of a clique node -/
  setOrd : ℕ → List ℕ → List ℕ

/-- What is guaranteed of the choices: sorting permutes its input and puts larger masses first;
iterating a set visits each element once. -/
structure Nondet.Legal (nd : Nondet V) : Prop where
  sort_perm : ∀ cl l, (nd.sortS cl l).Perm l
  sort_mass : ∀ cl l, (nd.sortS cl l).Pairwise (fun a b => mass cl b ≤ mass cl a)
  ord_perm : ∀ i l, (nd.setOrd i l).Perm l

/-- The `while sepsets_inserted < len(cliques) - 1` loop: `ebaybbn/bbn.py:993-1005`.
`inserted` lists the separators inserted so far.  An empty `deco` raises `IndexError` at
`deco[0]`; a full turn without insertion leaves the state unchanged and so repeats forever. -/
def joinLoop (nd : Nondet V) (cl : List (Finset V)) :
    ℕ → Forest → List (ℕ × ℕ) → List (ℕ × ℕ) → Except Err (Forest × List (ℕ × ℕ))
  | 0, forest, _, inserted =>
    if inserted.length + 1 < cl.length then .error .diverges else .ok (forest, inserted)
  | fuel + 1, forest, cands, inserted =>
    if inserted.length + 1 < cl.length then
      if nd.sortS cl cands = [] then .error .indexError
      else
        match tryInsert forest (nd.sortS cl cands) with
        | .error err => .error err
        | .ok none => .error .diverges
        | .ok (some (e, forest')) =>
          joinLoop nd cl fuel forest' (cands.erase e) (e :: inserted)
    else .ok (forest, inserted)

/-- A join tree: the cliques, the clique nodes in `clique_nodes` order, the separators. -/
structure JT (V : Type) where
  cliques : List (Finset V)
  order : List ℕ
  edges : List (ℕ × ℕ)

/-- Second half of `build_join_tree`, from the cliques: `ebaybbn/bbn.py:976-1009`. -/
def joinTreeOf (nd : Nondet V) (cl : List (Finset V)) : Except Err (JT V) :=
  match joinLoop nd cl cl.length ((List.range cl.length).map fun i => [i]) (sepsets cl) [] with
  | .error e => .error e
  | .ok ([t], edges) => .ok ⟨cl, t, edges⟩
  | .ok (_, _) => .error .assertion

/-- `build_join_tree(dag)`: `ebaybbn/bbn.py:951-1009`. -/
def buildJoinTree (nd : Nondet V) (nodes : List (Node V S K)) : Except Err (JT V) :=
  joinTreeOf nd (triangulate priorityFunc (moralizedCopy (undirectedCopy nodes) nodes)).cliques

/-- The concrete sort of `ebaybbn/bbn.py:996-997` for a given `repr`. -/
def codeSort (repr : ℕ × ℕ → String) (cl : List (Finset V)) (l : List (ℕ × ℕ)) : List (ℕ × ℕ) :=
  l.mergeSort (fun a b =>
    mass cl b < mass cl a ||
    (mass cl a == mass cl b && (cost cl a < cost cl b ||
      (cost cl a == cost cl b && decide (repr a ≤ repr b)))))

/-- `neighbouring_cliques` as a list: `ebaybbn/bbn.py:502-517`. -/
def neighbours (edges : List (ℕ × ℕ)) (i : ℕ) : List ℕ :=
  edges.filterMap fun e => if e.1 = i then some e.2 else if e.2 = i then some e.1 else none

end Graphs

/-! ### Potential tables -/

section Tables
variable {V S K : Type} [LinearOrder V] [DecidableEq S]

/-- A truth-table key: a tuple of `(variable, value)` pairs. -/
abbrev Key (V S : Type) := List (V × S)

/-- A potential table (a Python dict in insertion order). -/
abbrev TT (V S K : Type) := List (Key V S × K)

/-- `product(*[product([variable], domain) for variable in variables])`:
`ebaybbn/bbn.py:214-217`. -/
def perms (dom : V → List S) : List V → List (Key V S)
  | [] => [[]]
  | v :: vs => (dom v).flatMap fun s => (perms dom vs).map fun k => (v, s) :: k

/-- `transform(x, X, R)`: `ebaybbn/bbn.py:456-474`. -/
def transform (x : Key V S) (X R : List V) : Except Err (Key V S) :=
  R.mapM fun r =>
    if r ∈ X then
      match x[X.idxOf r]? with
      | some e => .ok e
      | none => .error .indexError
    else .error .valueError

/-- `tt[entry] += v` on a `defaultdict(float)`. -/
def addTo [Add K] [Zero K] : TT V S K → Key V S → K → TT V S K
  | [], k, v => [(k, 0 + v)]
  | (k', v') :: tt, k, v => if k' = k then (k', v' + v) :: tt else (k', v') :: addTo tt k v

/-- The summing loop shared by `project` (`ebaybbn/bbn.py:566-570`) and `marginal`
(`ebaybbn/bbn.py:436-439`). -/
def project [Add K] [Zero K] (tt : TT V S K) (X R : List V) : Except Err (TT V S K) :=
  tt.foldlM (fun acc kv => do
    let e ← transform kv.1 X R
    return addTo acc e kv.2) []

/-- One entry of `absorb`: `ebaybbn/bbn.py:594-600`.  `new` is a `defaultdict`, so a missing key
reads as `0`; a missing key of `old` is an error. -/
def absorbEntry [Mul K] [Div K] [Zero K] [DecidableEq K] (Y R : List V) (new old : TT V S K)
    (kv : Key V S × K) : Except Err (Key V S × K) := do
  let e ← transform kv.1 Y R
  if kv.2 = 0 then return (kv.1, 0)
  else
    match old.lookup e with
    | none => .error .keyError
    | some o =>
      if o = 0 then .error .zeroDivision
      else return (kv.1, kv.2 * ((new.lookup e).getD 0 / o))

/-- `absorb`: `ebaybbn/bbn.py:572-602`. -/
def absorb [Mul K] [Div K] [Zero K] [DecidableEq K] (target : TT V S K) (Y R : List V) (new old : TT V S K) :
    Except Err (TT V S K) :=
  target.mapM (absorbEntry Y R new old)

/-- The potentials stored in the join tree. -/
structure PState (V S K : Type) where
  cp : ℕ → TT V S K
  sp : ℕ × ℕ → TT V S K

/-- Sorted variable names of a clique or separator: `ebaybbn/bbn.py:493-500, 716`. -/
def names (c : Finset V) : List V := c.sort (· ≤ ·)

variable [Add K] [Mul K] [Div K] [Zero K] [One K] [DecidableEq K]

/-- `pass_message`: `ebaybbn/bbn.py:519-545` with `project` (547-570) and `absorb` (572-602). -/
def passMessage (jt : JT V) (st : PState V S K) (i j : ℕ) : Except Err (PState V S K) :=
  match jt.edges.find? (fun e => e = (i, j) ∨ e = (j, i)) with
  | none => .error .indexError
  | some e => do
    let R := names (label jt.cliques e)
    let old := st.sp e
    let new ← project (st.cp i) (names (clq jt.cliques i)) R
    let t ← absorb (st.cp j) (names (clq jt.cliques j)) R new old
    return ⟨Function.update st.cp j t, Function.update st.sp e new⟩

/-- Potentials together with the `marked` flags. -/
abbrev MState (V S K : Type) := PState V S K × List ℕ

/-- `collect_evidence(sender, receiver)`: `ebaybbn/bbn.py:360-378`. `ord` is the order in which
the neighbours of each clique node are visited.  The fuel bounds the recursion depth. -/
def collect (jt : JT V) (ord : ℕ → List ℕ) :
    ℕ → ℕ → Option ℕ → MState V S K → Except Err (MState V S K)
  | 0, _, _, _ => .error .diverges
  | fuel + 1, s, r, st => do
    let st ← (ord s).foldlM (fun st nb =>
      if nb ∈ st.2 then (.ok st : Except Err (MState V S K))
      else collect jt ord fuel nb (some s) st) (st.1, s :: st.2)
    match r with
    | none => return st
    | some r => do
      let p ← passMessage jt st.1 s r
      return (p, st.2)

/-- `distribute_evidence(sender)`: `ebaybbn/bbn.py:380-402`. -/
def distribute (jt : JT V) (ord : ℕ → List ℕ) :
    ℕ → ℕ → MState V S K → Except Err (MState V S K)
  | 0, _, _ => .error .diverges
  | fuel + 1, s, st => do
    let st ← (ord s).foldlM (fun st nb =>
      if nb ∈ st.2 then (.ok st : Except Err (MState V S K))
      else do
        let p ← passMessage jt st.1 s nb
        return (p, st.2)) (st.1, s :: st.2)
    (ord s).foldlM (fun st nb =>
      if nb ∈ st.2 then (.ok st : Except Err (MState V S K))
      else distribute jt ord fuel nb st) st

/-- `propagate(starting_clique)`: `ebaybbn/bbn.py:340-358`. -/
def propagate (jt : JT V) (ord : ℕ → List ℕ) (start : ℕ) (st : PState V S K) :
    Except Err (PState V S K) := do
  let st ← collect jt ord jt.cliques.length start none (st, [])
  let st ← distribute jt ord jt.cliques.length start (st.1, [])
  return st.1

/-- `assign_clusters`: every node goes to the first clique node containing its family.
`ebaybbn/bbn.py:286-338`. -/
def assignClusters (jt : JT V) (nodes : List (Node V S K)) :
    Except Err (List (ℕ × Node V S K)) :=
  nodes.mapM fun n =>
    match jt.order.filter (fun i => decide (n.args.toFinset ⊆ clq jt.cliques i)) with
    | [] => .error .assertion
    | i :: _ => .ok (i, n)

/-- `[argvals[arg_name] for arg_name in get_args(func)]`: `ebaybbn/bbn.py:250-252`. -/
def argList (k : Key V S) (args : List V) : Except Err (List S) :=
  args.mapM fun a =>
    match k.lookup a with
    | some s => .ok s
    | none => .error .keyError

/-- The potential of one permutation: `ebaybbn/bbn.py:241-255`. -/
def potential (k : Key V S) (ns : List (Node V S K)) : Except Err K :=
  ns.foldlM (fun acc n => do
    let a ← argList k n.args
    return acc * n.fn a) 1

/-- Step 2 of `initialize_potentials` for one clique: `ebaybbn/bbn.py:231-256`. -/
def cliqueTable (dom : V → List S) (X : List V) (ns : List (Node V S K)) :
    Except Err (TT V S K) :=
  (perms dom X).mapM fun k => do
    let p ← potential k ns
    return (k, p)

/-- Zero the entries contradicting the evidence on `v`: `ebaybbn/bbn.py:268-274`. -/
def zeroEvidence (tt : TT V S K) (v : V) (s : S) : TT V S K :=
  tt.map fun kv => if kv.1.any (fun p => p.1 = v && p.2 ≠ s) then (kv.1, 0) else kv

/-- Steps 2 and 2b of `initialize_potentials` for one clique with its assigned nodes:
`ebaybbn/bbn.py:231-274`. -/
def initClique (dom : V → List S) (ev : List (V × S)) (X : List V) (ns : List (Node V S K)) :
    Except Err (TT V S K) := do
  let tt ← cliqueTable dom X ns
  return ns.foldl (fun tt n =>
    match ev.lookup n.var with
    | some s => zeroEvidence tt n.var s
    | none => tt) tt

/-- `initialize_potentials(assignments, bbn, evidence)`: `ebaybbn/bbn.py:203-274`.  A clique
without assigned nodes keeps the all-one table of step 1; so does every separator. -/
def initPotentials (dom : V → List S) (jt : JT V) (asg : List (ℕ × Node V S K))
    (ev : List (V × S)) : Except Err (PState V S K) := do
  let tabs ← (List.range jt.cliques.length).mapM fun i =>
    initClique dom ev (names (clq jt.cliques i)) ((asg.filter (·.1 = i)).map (·.2))
  return ⟨fun i => tabs.getD i [],
    fun e => (perms dom (names (label jt.cliques e))).map fun k => (k, 1)⟩

/-- `marginal(bbn_node)`: `ebaybbn/bbn.py:404-444`. -/
def marginal (jt : JT V) (st : PState V S K) (v : V) : Except Err (TT V S K) :=
  match jt.order.filter (fun i => decide (v ∈ clq jt.cliques i)) with
  | [] => .error .indexError
  | i :: _ => project (st.cp i) (names (clq jt.cliques i)) [v]

/-- `validate_keyvals`: `ebaybbn/bbn.py:107-123`. -/
def validateKeyvals (dom : V → List S) (nodes : List (Node V S K)) :
    List (V × S) → Except Err Unit
  | [] => .ok ()
  | (k, v) :: kv =>
    if k ∉ nodes.map Node.var then .error .variableNotInGraph
    else if v ∉ dom k then .error .valueNotInDomain
    else validateKeyvals dom nodes kv

/-- `marginals[k[0]] = v` for every entry of a marginal table: `ebaybbn/bbn.py:138-143`. -/
def unpackMarginal (tt : TT V S K) : List ((V × S) × K) :=
  tt.filterMap fun kv => kv.1.head?.map fun p => (p, kv.2)

/-- The normalisation of `ebaybbn/bbn.py:147-153`; the normalizers are summed in the order of the marginals, from 0. -/
def normalise (ms : List ((V × S) × K)) : List ((V × S) × K) :=
  ms.map fun m =>
    let z := ((ms.filter (·.1.1 = m.1.1)).map (·.2)).foldl (· + ·) 0
    if z = 0 then m else (m.1, m.2 / z)

/-- `BBN.query(**kwds)`: `ebaybbn/bbn.py:125-155`. -/
def query (nd : Nondet V) (dom : V → List S) (nodes : List (Node V S K)) (ev : List (V × S)) :
    Except Err (List ((V × S) × K)) := do
  validateKeyvals dom nodes ev
  let jt ← buildJoinTree nd nodes
  let asg ← assignClusters jt nodes
  let st ← initPotentials dom jt asg ev
  match jt.order with
  | [] => .error .indexError
  | start :: _ => do
    let st ← propagate jt (fun i => nd.setOrd i (neighbours jt.edges i)) start st
    let ms ← nodes.mapM fun n => do
      let tt ← marginal jt st n.var
      return unpackMarginal tt
    return if ev = [] then ms.flatten else normalise ms.flatten

end Tables

end Verif.BBN
