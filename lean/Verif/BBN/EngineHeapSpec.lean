import Verif.BBN.EngineHeap

/-!
# The same histories with nothing shared

Specification for `Verif.BBN.EngineHeap`: networks, dictionaries of the caller and engines are
values in three separate lists, and a call can only change the entry it names.
-/

namespace Verif.BBN

/-- Networks, dictionaries of the caller, and engines. -/
structure Apart (V S K : Type) where
  nets : List (List (V × Frame V S K))
  datas : List (Data V S K)
  engines : List (Engine V S K)

/-- The distribution given by a dict. -/
def Dist.ofList {S K : Type} [DecidableEq S] [Zero K] (l : List (S × K)) : Dist S K :=
  ⟨(l.map Prod.fst).toFinset, fun s => (l.lookup s).getD 0⟩

section
variable {V S K : Type} [LinearOrder V] [DecidableEq S] [Field K] [LinearOrder K]

/-- One call. -/
def Apart.step (nd : Nondet V) (okName : V → Bool) (a : Apart V S K) : Call V S K → Apart V S K × Out V S K
  | .newNet bn => ({ a with nets := a.nets ++ [bn] }, .done)
  | .setNet i bn =>
    if i < a.nets.length then ({ a with nets := a.nets.set i bn }, .done) else (a, .nothing)
  | .newData d => ({ a with datas := a.datas ++ [d] }, .done)
  | .setData j d =>
    if j < a.datas.length then ({ a with datas := a.datas.set j d }, .done) else (a, .nothing)
  | .getData j =>
    match a.datas[j]? with
    | none => (a, .nothing)
    | some d => (a, .data d)
  | .create i =>
    match a.nets[i]? with
    | none => (a, .nothing)
    | some bn =>
      match Engine.create okName bn with
      | .error e => (a, .raised e)
      | .ok e => ({ a with engines := a.engines ++ [e] }, .done)
  | .query k j =>
    match a.engines[k]?, a.datas[j]? with
    | some e, some (.obs ev) =>
      match e.query nd ev with
      | .error err => (a, .raised err)
      | .ok out =>
        ({ a with datas := a.datas ++ out.map fun q => .dist q.2 },
          .answer ((out.map Prod.fst).zip (List.range' a.datas.length out.length)))
    | _, _ => (a, .nothing)
  | .doLabel k v isInt s =>
    match a.engines[k]? with
    | none => (a, .nothing)
    | some e => ({ a with engines := a.engines.set k (e.doIntervention v (.label isInt s)).1 },
        .of (e.doIntervention v (.label isInt s)).2)
  | .doDict k v j =>
    match a.engines[k]?, a.datas[j]? with
    | some e, some (.dist d) => ({ a with engines := a.engines.set k (e.doIntervention v (.dist (.ofList d))).1 },
        .of (e.doIntervention v (.dist (.ofList d))).2)
    | _, _ => (a, .nothing)
  | .reset k v =>
    match a.engines[k]? with
    | none => (a, .nothing)
    | some e => ({ a with engines := a.engines.set k (e.resetDo v).1 }, .of (e.resetDo v).2)

/-- A history of calls; the outputs in order. -/
def Apart.run (nd : Nondet V) (okName : V → Bool) : Apart V S K → List (Call V S K) → Apart V S K × List (Out V S K)
  | a, [] => (a, [])
  | a, c :: cs =>
    let (a₁, o) := a.step nd okName c
    let (a₂, os) := Apart.run nd okName a₁ cs
    (a₂, o :: os)

/-- A network as `BayesianNetwork` fits it: a connected acyclic graph, distinct states, conditional probabilities summing to one
(`Fitted`), and at least one state for each variable. -/
def GoodNet (bn : List (V × Frame V S K)) : Prop := Fitted bn ∧ ∀ q ∈ bn, q.2.index ≠ []

/-- A call a user may make: dictionaries are dictionaries, and engines are created from fitted networks. -/
def Apart.CallOk (a : Apart V S K) : Call V S K → Prop
  | .newData d => d.Valid
  | .setData _ d => d.Valid
  | .create i => ∀ bn, a.nets[i]? = some bn → GoodNet bn
  | _ => True

/-- All calls of a history are such calls. -/
def Apart.HistOk (nd : Nondet V) (okName : V → Bool) : Apart V S K → List (Call V S K) → Prop
  | _, [] => True
  | a, c :: cs => a.CallOk c ∧ Apart.HistOk nd okName (a.step nd okName c).1 cs

/-- Nothing exists yet. -/
def World.empty : World V S K := ⟨[], [], [], []⟩

/-- Nothing exists yet. -/
def Apart.empty : Apart V S K := ⟨[], [], []⟩

end

end Verif.BBN
