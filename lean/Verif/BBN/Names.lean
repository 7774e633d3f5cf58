import Verif.BBN.Conditionals
import Verif.Str.Basic
import Mathlib.Data.List.Lex
import Mathlib.Data.List.TakeWhile
import Mathlib.Data.Char

/-!
# Names of nodes in `InferenceEngine` (C98)

The names of the nodes are strings here.  They are checked by a regular expression, become the names of the arguments of the node
functions, and are passed as keyword arguments by `query`.
-/

namespace Verif.BBN

open Verif.Str (Str)

/-- `[0-9a-zA-Z_]`. -/
def nameChar (c : Char) : Bool :=
  (decide ('0' ≤ c) && decide (c ≤ '9')) || (decide ('a' ≤ c) && decide (c ≤ 'z')) || (decide ('A' ≤ c) && decide (c ≤ 'Z')) || c == '_'

/-- `re.match("^[0-9a-zA-Z_]+$", s)`: `inference/inference.py:107`.  The repetition takes as many characters as it can; `$` holds at the
end and before a newline at the end. -/
def matchName (s : Str) : Bool :=
  !(s.takeWhile nameChar).isEmpty && (s.dropWhile nameChar == [] || s.dropWhile nameChar == ['\n'])

/-- The name `self`. -/
def selfName : Str := ['s', 'e', 'l', 'f']

/-- What is bound to a name in the frame of a node function: a state, or the engine. -/
inductive Bound (S : Type)
  | state (s : S)
  | engine

/-- `inspect.getargvalues(inspect.currentframe()).locals` in a node function called with `xs`: the arguments; then the free variables of
the function, of which `self` is the only one, replace entries of the same name: `inference/inference.py:281-295` (and `f_locals` of
Python 3.6 to 3.8, for which the package is made). -/
def frameLocals {S : Type} (args : List Str) (xs : List S) (a : Str) : Option (Bound S) :=
  if a = selfName then some .engine else ((args.zip xs).lookup a).map Bound.state

section
variable {S K : Type} [DecidableEq S]

/-- A call of a node function with arguments `args`: `inference/inference.py:281-295`. -/
def callNode (cpds : List (Str × Cpd Str S K)) (args : List Str) (xs : List S) : Except Err K :=
  match args with
  | [] => .error .indexError
  | t :: ps =>
    match cpds.lookup t with
    | none => .error .keyError
    | some c =>
      match frameLocals args xs t with
      | some (.state s) =>
        if s ∈ c.states then
          match ps.mapM (frameLocals args xs) with
          | none => .error .keyError
          | some vs =>
            match vs.mapM (fun | Bound.state s => some s | Bound.engine => none) with
            | none => .error .keyError
            | some vs => .ok (c.p s vs)
        else .error .keyError
      | _ => .error .keyError

/-- What a query can raise: a repeated keyword argument, or another exception. -/
inductive NameErr
  | typeError
  | of (e : Err)
  deriving DecidableEq, Repr

/-- `InferenceEngine.query` for nodes with names: `inference/inference.py:126-149`, `ebaybbn/bbn.py:125-155`.  `query(**observations)`
passes `self` twice if it is observed.  Simplification: an exception of a node function is raised at the end. -/
def Engine.queryNamed [Add K] [Mul K] [Div K] [Zero K] [One K] [DecidableEq K] (nd : Nondet Str) (e : Engine Str S K) (ev : List (Str × S)) :
    Except NameErr (List (Str × List (S × K))) :=
  if selfName ∈ ev.map Prod.fst then .error .typeError
  else match e.query nd ev with
    | .error err => .error (.of err)
    | .ok out =>
      if e.cpds.any fun q => (valueLists e.dom (q.1 :: q.2.parents)).any fun xs =>
          match callNode e.cpds (q.1 :: q.2.parents) xs with
          | .error _ => true
          | .ok _ => false
      then .error (.of .keyError)
      else .ok out

end

/-! ### Specification and theorems -/

/-- Specification: an ASCII letter, digit or underscore. -/
def IsWordChar (c : Char) : Prop := c.isAlphanum = true ∨ c = '_'

theorem nameChar_iff (c : Char) : nameChar c = true ↔ IsWordChar c := by
  unfold nameChar IsWordChar Char.isAlphanum Char.isAlpha Char.isUpper Char.isLower Char.isDigit
  simp only [Bool.or_eq_true, Bool.and_eq_true, decide_eq_true_eq, beq_iff_eq]
  simp only [Char.le_def, ge_iff_le]
  have e1 : '0'.val = 48 := rfl
  have e2 : '9'.val = 57 := rfl
  have e3 : 'a'.val = 97 := rfl
  have e4 : 'z'.val = 122 := rfl
  have e5 : 'A'.val = 65 := rfl
  have e6 : 'Z'.val = 90 := rfl
  rw [e1, e2, e3, e4, e5, e6]
  tauto

/-- C98.  A name is accepted iff it consists of at least one ASCII letter, digit or underscore, possibly followed by one newline. -/
theorem matchName_iff (s : Str) :
    matchName s = true ↔ ∃ t : Str, t ≠ [] ∧ (∀ c ∈ t, IsWordChar c) ∧ (s = t ∨ s = t ++ ['\n']) := by
  unfold matchName
  rw [Bool.and_eq_true, Bool.not_eq_true', List.isEmpty_eq_false_iff, Bool.or_eq_true, beq_iff_eq, beq_iff_eq]
  constructor
  · rintro ⟨h1, h2⟩
    refine ⟨s.takeWhile nameChar, h1, ?_, ?_⟩
    · intro c hc
      exact (nameChar_iff c).1 (List.mem_takeWhile_imp hc)
    · have := List.takeWhile_append_dropWhile (p := nameChar) (l := s)
      rcases h2 with h2 | h2
      · left
        rw [h2, List.append_nil] at this
        exact this.symm
      · right
        rw [h2] at this
        exact this.symm
  · rintro ⟨t, h1, h2, h3⟩
    have ht : ∀ c ∈ t, nameChar c = true := fun c hc => (nameChar_iff c).2 (h2 c hc)
    rcases h3 with rfl | rfl
    · rw [List.takeWhile_eq_self_iff.2 ht, List.dropWhile_eq_nil_iff.2 ht]
      exact ⟨h1, Or.inl rfl⟩
    · rw [List.takeWhile_append_of_pos ht, List.dropWhile_append_of_pos ht]
      exact ⟨by simp [h1], Or.inr (by decide)⟩

section
variable {S K : Type} [DecidableEq S] [Field K] [LinearOrder K] [IsStrictOrderedRing K] {bn : List (Str × Frame Str S K)} {e : Engine Str S K}

/-- C98.  An engine is created iff every name of a node is accepted; otherwise `ValueError` is raised. -/
theorem create_names (hf : Fitted bn) :
    ((∃ e, Engine.create matchName bn = .ok e) ↔
      ∀ v ∈ bn.map Prod.fst, ∃ t : Str, t ≠ [] ∧ (∀ c ∈ t, IsWordChar c) ∧ (v = t ∨ v = t ++ ['\n'])) ∧
    ∀ err, Engine.create matchName bn = .error err → err = .valueError := by
  by_cases h : ∀ q ∈ bn, matchName q.1 = true
  · obtain ⟨e, h1, -⟩ := Engine.create_ok hf h
    rw [h1]
    refine ⟨⟨fun _ v hv => ?_, fun _ => ⟨e, rfl⟩⟩, fun err h' => by cases h'⟩
    obtain ⟨q, hq, rfl⟩ := List.mem_map.1 hv
    exact (matchName_iff q.1).1 (h q hq)
  · have hany : (bn.any fun q => !matchName q.1) = true := by
      push Not at h
      obtain ⟨q, hq, hne⟩ := h
      exact List.any_eq_true.2 ⟨q, hq, by simpa using hne⟩
    have : Engine.create matchName bn = .error .valueError := by
      unfold Engine.create
      rw [if_pos hany]
    rw [this]
    refine ⟨⟨fun h' => ?_, fun h' => ?_⟩, fun err h' => by cases h'; rfl⟩
    · obtain ⟨e, he⟩ := h'
      cases he
    exact absurd (fun (q : Str × Frame Str S K) hq => (matchName_iff q.1).2 (h' q.1 (List.mem_map_of_mem hq))) h

theorem Engine.Inv.states (hi : e.Inv bn) (hf : Fitted bn) {q : Str × Cpd Str S K} (hq : q ∈ e.cpds) :
    q.2.states = (e.dom q.1).toFinset := by
  rw [hi.dom_eq]
  rcases hi.each q hq with h | ⟨c, hc, d, hd, he⟩
  · exact orig_states hf.nodup (hi.orig_eq ▸ h)
  · rw [he, ← orig_states hf.nodup (hi.orig_eq ▸ hc), ← hd.keys]
    rfl

theorem mapM_frame {args : List Str} (hs : selfName ∉ args) (x : Str → S) {ps : List Str} (hp : ∀ a ∈ ps, a ∈ args) :
    ps.mapM (frameLocals args (args.map x)) = some (ps.map fun a => Bound.state (x a)) := by
  apply mapM_some'
  intro a ha
  unfold frameLocals
  have hne : a ≠ selfName := by
    rintro rfl
    exact hs (hp _ ha)
  rw [if_neg hne, zip_map_self]
  have : ((args.map fun a => (a, x a)).lookup a) = some (x a) := by
    have := hp a ha
    clear hp hs ha
    induction args with
    | nil => simp at this
    | cons b l ih =>
      rw [List.map_cons, List.lookup_cons]
      by_cases he : a = b
      · subst he
        simp
      · rw [show (a == b) = false by simpa using he]
        exact ih ((List.mem_cons.1 this).resolve_left he)
  rw [this]
  rfl

/-- Without the name `self`, a call of a node function reads the entry of the table. -/
theorem Engine.Inv.callNode (hi : e.Inv bn) (hf : Fitted bn) (hs : selfName ∉ bn.map Prod.fst) {q : Str × Cpd Str S K} (hq : q ∈ e.cpds)
    {x : Str → S} (hx : ∀ a ∈ q.1 :: q.2.parents, x a ∈ e.dom a) :
    callNode e.cpds (q.1 :: q.2.parents) ((q.1 :: q.2.parents).map x) = .ok (q.2.p (x q.1) (q.2.parents.map x)) := by
  have hw := hi.wf hf
  have hn : (⟨cpdFactor q, q.1⟩ : Node Str S K) ∈ netNodes e.cpds := List.mem_map.2 ⟨q, hq, rfl⟩
  have hs' : selfName ∉ q.1 :: q.2.parents := by
    intro h
    have := hw.args_sub _ hn selfName h
    rw [netNodes_vars, hi.vars] at this
    exact hs this
  have hlk : e.cpds.lookup q.1 = some q.2 := by
    refine lookup_nodup ?_ hq
    rw [hi.vars]
    exact hf.nodup
  have h1 : frameLocals (q.1 :: q.2.parents) ((q.1 :: q.2.parents).map x) q.1 = some (Bound.state (x q.1)) := by
    have := mapM_frame hs' x (ps := [q.1]) (by simp)
    rw [List.mapM_cons] at this
    cases h : frameLocals (q.1 :: q.2.parents) ((q.1 :: q.2.parents).map x) q.1 with
    | none => rw [h] at this; simp at this
    | some b => rw [h] at this; simpa using this
  have h2 := mapM_frame hs' x (ps := q.2.parents) fun a ha => List.mem_cons_of_mem _ ha
  have h3 : ((q.2.parents.map fun a => Bound.state (x a)).mapM fun | Bound.state s => some s | Bound.engine => none) =
      some (q.2.parents.map x) := by
    rw [mapM_some' (g := fun | Bound.state s => s | Bound.engine => x q.1)]
    · rw [List.map_map]
      rfl
    · intro b hb
      obtain ⟨a, -, rfl⟩ := List.mem_map.1 hb
      rfl
  unfold BBN.callNode
  dsimp only
  rw [hlk]
  dsimp only
  rw [h1]
  dsimp only
  rw [if_pos, h2]
  · dsimp only
    rw [h3]
  · rw [hi.states hf hq, List.mem_toFinset]
    exact hx q.1 List.mem_cons_self

/-- C98.  If no node is called `self`, names have no effect: queries answer as in C14 to C27. -/
theorem query_named_partial {nd : Nondet Str} (hf : Fitted bn) (hr : Reach nd bn e) (hs : selfName ∉ bn.map Prod.fst)
    {ev : List (Str × S)} (hev : selfName ∉ ev.map Prod.fst) :
    e.queryNamed nd ev = match e.query nd ev with
      | .error err => .error (.of err)
      | .ok out => .ok out := by
  have hi := hr.inv hf
  unfold Engine.queryNamed
  rw [if_neg hev]
  cases hq : e.query nd ev with
  | error err => rfl
  | ok out =>
    dsimp only
    rw [if_neg]
    rw [Bool.not_eq_true, List.any_eq_false]
    intro q hq
    rw [Bool.not_eq_true, List.any_eq_false]
    intro xs hxs
    have hn : (⟨cpdFactor q, q.1⟩ : Node Str S K) ∈ netNodes e.cpds := List.mem_map.2 ⟨q, hq, rfl⟩
    by_cases hS : Nonempty S
    · obtain ⟨s⟩ := hS
      obtain ⟨x, rfl, hx⟩ := mem_valueLists ((hi.wf hf).args_nodup _ hn) hxs fun _ => s
      have := hi.callNode hf hs hq hx
      change ¬ (match BBN.callNode e.cpds (q.1 :: q.2.parents) ((q.1 :: q.2.parents).map x) with
          | .error _ => true
          | .ok _ => false) = true
      rw [this]
      simp
    · rw [valueLists, List.mem_flatMap] at hxs
      obtain ⟨s, -⟩ := hxs
      exact absurd ⟨s⟩ hS

theorem valueLists_mem {V : Type} {dom : V → List S} {x : V → S} {vs : List V} (hx : ∀ v ∈ vs, x v ∈ dom v) : vs.map x ∈ valueLists dom vs := by
  induction vs with
  | nil => simp [valueLists]
  | cons v vs ih =>
    rw [valueLists, List.mem_flatMap]
    exact ⟨x v, hx v List.mem_cons_self, List.mem_map_of_mem (ih fun w hw => hx w (List.mem_cons_of_mem _ hw))⟩

/-- C98.  The name `self` is accepted, but no query of such a network succeeds, whatever is observed and whatever was done before. -/
theorem query_self_raises {nd : Nondet Str} (hf : Fitted bn) (hr : Reach nd bn e) (hs : selfName ∈ bn.map Prod.fst) {x₀ : Str → S}
    (hx₀ : ∀ v ∈ bn.map Prod.fst, x₀ v ∈ e.dom v) (ev : List (Str × S)) :
    (∃ err, e.queryNamed nd ev = .error err) ∧ (selfName ∈ ev.map Prod.fst → e.queryNamed nd ev = .error .typeError) := by
  have hi := hr.inv hf
  refine ⟨?_, fun h => by unfold Engine.queryNamed; rw [if_pos h]⟩
  unfold Engine.queryNamed
  by_cases h : selfName ∈ ev.map Prod.fst
  · rw [if_pos h]
    exact ⟨_, rfl⟩
  · rw [if_neg h]
    cases e.query nd ev with
    | error err => exact ⟨_, rfl⟩
    | ok out =>
      dsimp only
      rw [if_pos]
      · exact ⟨_, rfl⟩
      · rw [← hi.vars] at hs
        obtain ⟨q, hq, he⟩ := List.mem_map.1 hs
        have hn : (⟨cpdFactor q, q.1⟩ : Node Str S K) ∈ netNodes e.cpds := List.mem_map.2 ⟨q, hq, rfl⟩
        rw [List.any_eq_true]
        refine ⟨q, hq, ?_⟩
        rw [List.any_eq_true]
        refine ⟨(q.1 :: q.2.parents).map x₀, valueLists_mem fun v hv => hx₀ v ?_, ?_⟩
        · have := (hi.wf hf).args_sub _ hn v hv
          rwa [netNodes_vars, hi.vars] at this
        · unfold callNode
          dsimp only
          cases e.cpds.lookup q.1 with
          | none => rfl
          | some c =>
            dsimp only
            have : frameLocals (q.1 :: q.2.parents) ((q.1 :: q.2.parents).map x₀) q.1 = some .engine := by
              unfold frameLocals
              rw [if_pos he]
            rw [this]

end

/-! ### An example: `self → a` -/

/-- A network with the nodes `self` and `a`. -/
def selfNet : List (Str × Frame Str Bool ℚ) :=
  [(selfName, ⟨[false, true], [], fun _ _ => 1/2⟩),
   (['a'], ⟨[false, true], [selfName], fun s ps => if [s] = ps then 3/4 else 1/4⟩)]

theorem selfNet_arrows : arrows (netNodes (cpdsOf selfNet)) = [(selfName, ['a'])] := by decide

theorem selfNet_fitted : Fitted selfNet where
  wf := ⟨by decide, by decide, by decide, by decide⟩
  nonempty := by simp [selfNet, cpdsOf, netNodes]
  acyclic := by
    rw [selfNet_arrows]
    intro v hv
    have : ∀ w, Relation.TransGen (Graph.EdgeRel [(selfName, ['a'])]) v w → v = selfName ∧ w = ['a'] := by
      intro w h
      induction h with
      | single h => simpa [Graph.EdgeRel] using h
      | tail _ h ih => exact ⟨ih.1, by simpa [Graph.EdgeRel] using (by simpa [Graph.EdgeRel] using h : _ ∧ _).2⟩
    have h := this v hv
    exact absurd (h.1.symm.trans h.2) (by decide)
  connected := by
    have h0 : ∀ u ∈ (netNodes (cpdsOf selfNet)).map Node.var, Graph.WConn (arrows (netNodes (cpdsOf selfNet))) selfName u := by
      intro u hu
      have hu : u ∈ [selfName, ['a']] := hu
      rw [selfNet_arrows]
      have : u = selfName ∨ u = ['a'] := by simpa using hu
      rcases this with rfl | rfl
      · exact Relation.ReflTransGen.refl
      · exact Graph.wconn_of_mem (by simp)
    intro u hu w hw
    exact (Graph.WConn.symm (h0 u hu)).trans (h0 w hw)
  states_nodup := by decide
  nonneg := by
    intro n hn x _
    simp only [selfNet, cpdsOf, netNodes, List.map_cons, List.map_nil, List.mem_cons, List.not_mem_nil, or_false] at hn
    rcases hn with rfl | rfl
    · simp [cpdFactor]
    · simp only [cpdFactor, List.map_cons, List.map_nil]
      split_ifs <;> norm_num
  normalised := by
    intro n hn x _
    simp only [selfNet, cpdsOf, netNodes, List.map_cons, List.map_nil, List.mem_cons, List.not_mem_nil, or_false] at hn
    rcases hn with rfl | rfl
    · simp [cpdFactor, domOf, selfNet]
      norm_num
    · have hd : domOf selfNet ['a'] = [false, true] := by decide
      have hne : selfName ≠ ['a'] := by decide
      simp only [cpdFactor, hd, List.map_cons, List.map_nil, Function.update_self, Function.update, dif_neg hne]
      cases x selfName <;> norm_num

/-- C98.  The example is accepted, and none of its queries succeeds. -/
theorem selfNet_useless : ∃ e, Engine.create matchName selfNet = .ok e ∧ ∀ nd ev, ∃ err, e.queryNamed nd ev = .error err := by
  have hok : ∃ e, Engine.create matchName selfNet = .ok e := by
    obtain ⟨e, h, -⟩ := Engine.create_ok selfNet_fitted (okName := matchName) (by decide)
    exact ⟨e, h⟩
  obtain ⟨e, he⟩ := hok
  refine ⟨e, he, fun nd ev => ?_⟩
  refine (query_self_raises selfNet_fitted ⟨matchName, e, [], he, rfl⟩ (by decide) (x₀ := fun _ => true) ?_ ev).1
  change ∀ v ∈ List.map Prod.fst selfNet, true ∈ e.dom v
  rw [(Engine.create_inv selfNet_fitted he).1.dom_eq]
  decide

/-- `arg_spec`, the other variable of the function, is an ordinary name; a name with a newline at its end is accepted. -/
theorem matchName_examples : matchName ['a', 'r', 'g', '_', 's', 'p', 'e', 'c'] = true ∧ matchName ['a', '\n'] = true ∧
    matchName ['a', '\n', '\n'] = false ∧ matchName ['a', ' '] = false ∧ matchName [] = false := by decide

end Verif.BBN
