import Verif.BBN.EngineInv
import Verif.BBN.EngineProps
import Verif.BBN.SampleLemmas
import Mathlib.Data.List.Sort

/-!
# Networks built from a dict of conditional probabilities (C97)

`build_bbn_from_conditionals({variable: [[[[parent, value], ...], {value: probability, ...}], ...], ...})`.
-/

namespace Verif.BBN

open Function

/-- One entry of the list of a variable: values of the parents, and a dict of the probabilities of the values. -/
structure CondRow (V S K : Type) where
  givens : List (V × S)
  probs : List (S × K)

/-- What building or querying such a network can raise: `key_` is not bound (`UnboundLocalError`), or an exception of the library. -/
inductive CondErr
  | unbound
  | of (e : Err)
  deriving DecidableEq, Repr

section
variable {V S K : Type} [LinearOrder V] [DecidableEq S]

/-- The assignments `tt[key_] = prob` in their order: `ebaybbn/bbn.py:781-796`.  `sorted` compares the names, which are different. -/
def condEntries (v : V) (rows : List (CondRow V S K)) : List (List (V × S) × K) :=
  rows.flatMap fun r => r.probs.map fun q => (sampleKey r.givens ++ [(v, q.1)], q.2)

/-- A node function with its `argspec`; `none` is a `KeyError`. -/
structure CondFn (V S K : Type) where
  args : List V
  call : List S → Option K

/-- `make_node_func`: `ebaybbn/bbn.py:772-809`.  The names of the arguments are those of the last key; `none` if there is no key. -/
def makeNodeFunc (v : V) (rows : List (CondRow V S K)) : Option (CondFn V S K) :=
  (condEntries v rows).getLast?.map fun k =>
    ⟨k.1.map Prod.fst, fun xs => (condEntries v rows).reverse.lookup ((k.1.map Prod.fst).zip xs)⟩

/-- `node_func._domain`, as a list with repetitions: `ebaybbn/bbn.py:780`, `795`. -/
def condValues (rows : List (CondRow V S K)) : List S := rows.flatMap fun r => r.probs.map Prod.fst

/-- The functions of all variables. -/
def condFns (conds : List (V × List (CondRow V S K))) : Option (List (CondFn V S K)) :=
  conds.mapM fun q => makeNodeFunc q.1 q.2

/-- A node function as a factor; the check in `condQuery` comes first, so that the number for a missing entry is not used. -/
def CondFn.toFactor [Zero K] (f : CondFn V S K) : Factor V S K := ⟨f.args, fun xs => (f.call xs).getD 0⟩

/-- `build_bbn_from_conditionals`: `ebaybbn/bbn.py:812-819`, and `build_bbn`: `ebaybbn/bbn.py:722-769`. -/
def buildConditionals [Zero K] (conds : List (V × List (CondRow V S K))) : Except CondErr (List (Node V S K)) :=
  match condFns conds with
  | none => .error .unbound
  | some fs =>
    if fs.isEmpty then .error (.of .indexError)
    else match getOriginalFactors (fs.map CondFn.toFactor) with
      | .error e => .error (.of e)
      | .ok nodes => .ok nodes

/-- All combinations of values of some variables. -/
def valueLists (dom : V → List S) : List V → List (List S)
  | [] => [[]]
  | v :: vs => (dom v).flatMap fun s => (valueLists dom vs).map (s :: ·)

/-- `build_bbn_from_conditionals(conds).query(**ev)`: `ebaybbn/bbn.py:125-155`.  `dom` is the order in which the sets of values are
iterated.  Simplification: a combination of values without an entry raises `KeyError` at once, not when a table with it is built. -/
def condQuery [Add K] [Mul K] [Div K] [Zero K] [One K] [DecidableEq K] (nd : Nondet V) (dom : V → List S)
    (conds : List (V × List (CondRow V S K))) (ev : List (V × S)) : Except CondErr (List ((V × S) × K)) :=
  match buildConditionals conds with
  | .error e => .error e
  | .ok nodes =>
    if ((condFns conds).getD []).any fun f => (valueLists dom f.args).any fun xs => (f.call xs).isNone then .error (.of .keyError)
    else match query nd dom nodes ev with
      | .error e => .error (.of e)
      | .ok res => .ok res

/-! ### Specification -/

/-- Specification: the probability that the dict gives to the value of a variable in `x`, given the values of its parents in `x`.  If
several entries have the same values of the parents, the last one counts. -/
def condProb [Zero K] (q : V × List (CondRow V S K)) (x : V → S) : K :=
  ((q.2.reverse.find? fun r => decide (Agrees r.givens x)).bind fun r => r.probs.lookup (x q.1)).getD 0

/-- Specification: the total probability of the assignments with `A`. -/
def condMass [Semiring K] (dom : V → List S) (conds : List (V × List (CondRow V S K))) (x₀ : V → S) (A : (V → S) → Prop)
    [DecidablePred A] : K :=
  (((worlds dom (conds.map Prod.fst) x₀).filter fun x => A x).map fun x => (conds.map fun q => condProb q x).prod).sum

/-- Specification: the dict describes a network in which `v` has the parents `par v`: every entry names all the parents, in any order;
every combination of their values has an entry; every entry gives probabilities to the same values; the graph is acyclic and in one
piece. -/
structure GoodConds [Semiring K] [LE K] (dom : V → List S) (par : V → List V) (conds : List (V × List (CondRow V S K))) : Prop where
  nonempty : conds ≠ []
  names : (conds.map Prod.fst).Nodup
  par_nodup : ∀ q ∈ conds, (par q.1).Nodup
  par_known : ∀ q ∈ conds, ∀ a ∈ par q.1, a ∈ conds.map Prod.fst
  acyclic : Graph.Acyclic (conds.flatMap fun q => (par q.1).map fun a => (a, q.1))
  connected : ∀ u ∈ conds.map Prod.fst, ∀ w ∈ conds.map Prod.fst, Graph.WConn (conds.flatMap fun q => (par q.1).map fun a => (a, q.1)) u w
  dom_nodup : ∀ q ∈ conds, (dom q.1).Nodup
  dom_ne : ∀ q ∈ conds, dom q.1 ≠ []
  givens : ∀ q ∈ conds, ∀ r ∈ q.2, (r.givens.map Prod.fst).Perm (par q.1)
  complete : ∀ q ∈ conds, ∀ x : V → S, (∀ a ∈ par q.1, x a ∈ dom a) → ∃ r ∈ q.2, Agrees r.givens x
  keys : ∀ q ∈ conds, ∀ r ∈ q.2, (r.probs.map Prod.fst).Perm (dom q.1)
  nonneg : ∀ q ∈ conds, ∀ r ∈ q.2, ∀ p ∈ r.probs, 0 ≤ p.2
  sum_one : ∀ q ∈ conds, ∀ r ∈ q.2, (r.probs.map Prod.snd).sum = 1

/-! ### Keys -/

theorem map_fst_insertKey (p : V × S) (l : List (V × S)) :
    (insertKey p l).map Prod.fst = (l.map Prod.fst).orderedInsert (· ≤ ·) p.1 := by
  induction l with
  | nil => rfl
  | cons q l ih =>
    simp only [insertKey, List.map_cons, List.orderedInsert]
    split_ifs with h
    · rfl
    · simp [ih]

theorem map_fst_sampleKey (l : List (V × S)) : (sampleKey l).map Prod.fst = (l.map Prod.fst).insertionSort (· ≤ ·) := by
  induction l with
  | nil => rfl
  | cons p l ih =>
    change (insertKey p (sampleKey l)).map Prod.fst = _
    rw [map_fst_insertKey, ih]
    rfl

/-- The arguments of the function of `v`. -/
def condArgs (par : V → List V) (v : V) : List V := (par v).insertionSort (· ≤ ·) ++ [v]

theorem insertionSort_perm_eq {l l' : List V} (h : l.Perm l') : l.insertionSort (· ≤ ·) = l'.insertionSort (· ≤ ·) :=
  ((List.perm_insertionSort _ l).trans (h.trans (List.perm_insertionSort _ l').symm)).eq_of_sortedLE
    List.sortedLE_insertionSort List.sortedLE_insertionSort

theorem lookup_nodup {α β : Type} [BEq α] [LawfulBEq α] {l : List (α × β)} (hn : (l.map Prod.fst).Nodup) {a : α} {b : β} (h : (a, b) ∈ l) :
    l.lookup a = some b := by
  induction l with
  | nil => simp at h
  | cons q l ih =>
    rw [List.map_cons, List.nodup_cons] at hn
    rcases List.mem_cons.1 h with rfl | h'
    · exact List.lookup_cons_self
    · have : a ≠ q.1 := fun e => hn.1 (e ▸ List.mem_map_of_mem h')
      obtain ⟨c, d⟩ := q
      rw [List.lookup_cons, show (a == c) = false by simpa using this]
      exact ih hn.2 h'

theorem lookup_append' {α β : Type} [BEq α] [LawfulBEq α] (l m : List (α × β)) (a : α) :
    (l ++ m).lookup a = (l.lookup a).or (m.lookup a) := by
  induction l with
  | nil => simp
  | cons q l ih =>
    obtain ⟨c, d⟩ := q
    rw [List.cons_append, List.lookup_cons, List.lookup_cons]
    cases h : a == c with
    | true => simp
    | false => simpa using ih

theorem lookup_eq_none' {α β : Type} [BEq α] [LawfulBEq α] {l : List (α × β)} {a : α} (h : ∀ q ∈ l, q.1 ≠ a) : l.lookup a = none := by
  induction l with
  | nil => rfl
  | cons q l ih =>
    obtain ⟨c, d⟩ := q
    rw [List.lookup_cons, show (a == c) = false by simpa using (h (c, d) List.mem_cons_self).symm]
    exact ih fun q hq => h q (List.mem_cons_of_mem _ hq)

/-- When a sorted key is the one of an assignment. -/
theorem key_eq_iff {par : V → List V} {v : V} {g : List (V × S)} (hg : (g.map Prod.fst).Perm (par v)) (s : S) (x : V → S) :
    sampleKey g ++ [(v, s)] = (condArgs par v).map (fun a => (a, x a)) ↔ Agrees g x ∧ s = x v := by
  have hm : (sampleKey g).map Prod.fst = (par v).insertionSort (· ≤ ·) := by
    rw [map_fst_sampleKey, insertionSort_perm_eq hg]
  unfold condArgs
  rw [List.map_append, List.map_cons, List.map_nil]
  have h1 : sampleKey g = ((par v).insertionSort (· ≤ ·)).map (fun a => (a, x a)) ↔ Agrees g x := by
    rw [← hm, List.map_map]
    have h2 : sampleKey g = (sampleKey g).map ((fun a => (a, x a)) ∘ Prod.fst) ↔ ∀ p ∈ sampleKey g, x p.1 = p.2 := by
      generalize sampleKey g = l
      induction l with
      | nil => simp
      | cons p l ih =>
        simp only [List.map_cons, List.cons.injEq, Function.comp_apply, List.forall_mem_cons]
        constructor
        · rintro ⟨h3, h4⟩
          exact ⟨(congrArg Prod.snd h3).symm, ih.1 h4⟩
        · rintro ⟨h3, h4⟩
          exact ⟨Prod.ext rfl h3.symm, ih.2 h4⟩
    rw [h2]
    unfold Agrees
    exact ⟨fun h p hp => h p ((sampleKey_perm g).mem_iff.2 hp), fun h p hp => h p ((sampleKey_perm g).mem_iff.1 hp)⟩
  rw [← h1]
  constructor
  · intro h
    obtain ⟨h2, h3⟩ := List.append_inj' h rfl
    exact ⟨h2, by simpa using h3⟩
  · rintro ⟨h2, rfl⟩
    rw [h2]

/-- What a node function returns. -/
theorem condEntries_lookup {par : V → List V} {v : V} {rows : List (CondRow V S K)} (hg : ∀ r ∈ rows, (r.givens.map Prod.fst).Perm (par v))
    (hk : ∀ r ∈ rows, (r.probs.map Prod.fst).Nodup) {x : V → S} (hx : ∀ r ∈ rows, x v ∈ r.probs.map Prod.fst) :
    (condEntries v rows).reverse.lookup ((condArgs par v).map fun a => (a, x a)) =
      (rows.reverse.find? fun r => decide (Agrees r.givens x)).bind fun r => r.probs.lookup (x v) := by
  have hrev : (condEntries v rows).reverse =
      rows.reverse.flatMap fun r => (r.probs.map fun q => (sampleKey r.givens ++ [(v, q.1)], q.2)).reverse := by
    unfold condEntries
    rw [List.reverse_flatMap]
    rfl
  rw [hrev]
  have hg' : ∀ r ∈ rows.reverse, (r.givens.map Prod.fst).Perm (par v) := fun r hr => hg r (List.mem_reverse.1 hr)
  have hk' : ∀ r ∈ rows.reverse, (r.probs.map Prod.fst).Nodup := fun r hr => hk r (List.mem_reverse.1 hr)
  have hx' : ∀ r ∈ rows.reverse, x v ∈ r.probs.map Prod.fst := fun r hr => hx r (List.mem_reverse.1 hr)
  generalize rows.reverse = l at hg' hk' hx'
  induction l with
  | nil => rfl
  | cons r l ih =>
    rw [List.flatMap_cons, lookup_append', List.find?_cons]
    have hgr := hg' r List.mem_cons_self
    by_cases ha : Agrees r.givens x
    · rw [decide_eq_true ha]
      dsimp only
      obtain ⟨⟨s, p⟩, hp, hs⟩ := List.mem_map.1 (hx' r List.mem_cons_self)
      have hs' : s = x v := hs
      subst hs'
      rw [Option.bind_some, lookup_nodup (hk' r List.mem_cons_self) hp]
      have : ((r.probs.map fun q => (sampleKey r.givens ++ [(v, q.1)], q.2)).reverse).lookup ((condArgs par v).map fun a => (a, x a)) =
          some p := by
        apply lookup_nodup
        · rw [List.map_reverse, List.nodup_reverse, List.map_map]
          have := (hk' r List.mem_cons_self)
          have e : r.probs.map (Prod.fst ∘ fun q : S × K => (sampleKey r.givens ++ [(v, q.1)], q.2)) =
              (r.probs.map Prod.fst).map fun s => sampleKey r.givens ++ [(v, s)] := by
            rw [List.map_map]
            rfl
          rw [e]
          refine this.map ?_
          intro a b hab
          simpa using hab
        · rw [List.mem_reverse, List.mem_map]
          exact ⟨_, hp, by rw [Prod.mk.injEq]; exact ⟨(key_eq_iff hgr _ x).2 ⟨ha, rfl⟩, rfl⟩⟩
      rw [this]
      rfl
    · rw [decide_eq_false ha]
      dsimp only
      rw [lookup_eq_none', Option.none_or]
      · exact ih (fun r hr => hg' r (List.mem_cons_of_mem _ hr)) (fun r hr => hk' r (List.mem_cons_of_mem _ hr))
          fun r hr => hx' r (List.mem_cons_of_mem _ hr)
      · intro q hq
        rw [List.mem_reverse] at hq
        obtain ⟨w, -, rfl⟩ := List.mem_map.1 hq
        intro h
        exact ha ((key_eq_iff hgr _ x).1 h).1

/-- The node of a variable. -/
def condNode [Zero K] (par : V → List V) (q : V × List (CondRow V S K)) : Node V S K :=
  ⟨⟨condArgs par q.1, fun xs => ((condEntries q.1 q.2).reverse.lookup ((condArgs par q.1).zip xs)).getD 0⟩, q.1⟩

theorem mem_condArgs {par : V → List V} {v a : V} : a ∈ condArgs par v ↔ a ∈ par v ∨ a = v := by
  unfold condArgs
  simp

theorem zip_map_self {α β : Type} (l : List α) (f : α → β) : l.zip (l.map f) = l.map fun a => (a, f a) := by
  induction l with
  | nil => rfl
  | cons a l ih => simp [ih]

end

section
variable {V S K : Type} [LinearOrder V] [DecidableEq S] [Field K] [LinearOrder K] [IsStrictOrderedRing K]
  {dom : V → List S} {par : V → List V} {conds : List (V × List (CondRow V S K))}

theorem GoodConds.not_own (h : GoodConds dom par conds) {q} (hq : q ∈ conds) : q.1 ∉ par q.1 := by
  intro hp
  refine h.acyclic q.1 (Relation.TransGen.single ?_)
  change (q.1, q.1) ∈ _
  rw [List.mem_flatMap]
  exact ⟨q, hq, List.mem_map.2 ⟨q.1, hp, rfl⟩⟩

theorem GoodConds.fn (h : GoodConds dom par conds) {q} (hq : q ∈ conds) {x : V → S} (hx : x q.1 ∈ dom q.1) :
    (condNode par q).fn ((condNode par q).args.map x) = condProb q x := by
  unfold condNode condProb
  dsimp only
  rw [zip_map_self, condEntries_lookup (h.givens q hq) (fun r hr => (h.keys q hq r hr).nodup_iff.2 (h.dom_nodup q hq))
    fun r hr => (h.keys q hq r hr).mem_iff.2 hx]

theorem GoodConds.row (h : GoodConds dom par conds) {q} (hq : q ∈ conds) {x : V → S} (hx : ∀ a ∈ par q.1, x a ∈ dom a) :
    ∃ r ∈ q.2, Agrees r.givens x ∧ ∀ s, (∀ y : V → S, (∀ a ∈ par q.1, y a = x a) → y q.1 = s → condProb q y = (r.probs.lookup s).getD 0) := by
  obtain ⟨r₀, hr₀, ha₀⟩ := h.complete q hq x hx
  cases hf : q.2.reverse.find? fun r => decide (Agrees r.givens x) with
  | none =>
    rw [List.find?_eq_none] at hf
    exact absurd (decide_eq_true ha₀) (hf r₀ (List.mem_reverse.2 hr₀))
  | some r =>
    have ha : Agrees r.givens x := by
      have := List.find?_some hf
      simpa using this
    refine ⟨r, List.mem_reverse.1 (List.mem_of_find?_eq_some hf), ha, ?_⟩
    intro s y hy hs
    have : (q.2.reverse.find? fun r => decide (Agrees r.givens y)) = some r := by
      rw [← hf]
      have hc : ∀ l : List (CondRow V S K), (∀ r ∈ l, r ∈ q.2) →
          (l.find? fun r => decide (Agrees r.givens y)) = l.find? fun r => decide (Agrees r.givens x) := by
        intro l
        induction l with
        | nil => intro _; rfl
        | cons r' l ih =>
          intro hl
          rw [List.find?_cons, List.find?_cons]
          have : decide (Agrees r'.givens y) = decide (Agrees r'.givens x) := by
            rw [decide_eq_decide]
            have hp := h.givens q hq r' (hl r' List.mem_cons_self)
            constructor
            · intro h' p hpm
              rw [← hy p.1 (hp.mem_iff.1 (List.mem_map_of_mem hpm))]
              exact h' p hpm
            · intro h' p hpm
              rw [hy p.1 (hp.mem_iff.1 (List.mem_map_of_mem hpm))]
              exact h' p hpm
          rw [this, ih fun r hr => hl r (List.mem_cons_of_mem _ hr)]
      exact hc _ fun r hr => List.mem_reverse.1 hr
    unfold condProb
    rw [this, hs]
    rfl

theorem sum_lookup {β : Type} [DecidableEq β] {l : List (β × K)} {d : List β} (hd : d.Nodup) (hp : (l.map Prod.fst).Perm d) :
    (d.map fun s => (l.lookup s).getD 0).sum = (l.map Prod.snd).sum := by
  rw [← (hp.map fun s => (l.lookup s).getD 0).sum_eq, List.map_map]
  congr 1
  apply List.map_congr_left
  intro q hq
  rw [Function.comp_apply, lookup_nodup (hp.nodup_iff.2 hd) (b := q.2) hq]
  rfl

theorem GoodConds.arrows_eq (h : GoodConds dom par conds) (u w : V) : (u, w) ∈ arrows (conds.map (condNode par)) ↔
    (u, w) ∈ conds.flatMap fun q => (par q.1).map fun a => (a, q.1) := by
  unfold arrows
  rw [List.mem_flatMap, List.mem_flatMap]
  constructor
  · rintro ⟨n, hn, hm⟩
    obtain ⟨q, hq, rfl⟩ := List.mem_map.1 hn
    obtain ⟨p, hp, he⟩ := List.mem_map.1 hm
    refine ⟨q, hq, List.mem_map.2 ⟨p, ?_, he⟩⟩
    have := List.mem_filter.1 hp
    rcases mem_condArgs.1 this.1 with h1 | h1
    · exact h1
    · exact absurd h1 (of_decide_eq_true this.2)
  · rintro ⟨q, hq, hm⟩
    obtain ⟨p, hp, he⟩ := List.mem_map.1 hm
    refine ⟨_, List.mem_map_of_mem hq, List.mem_map.2 ⟨p, ?_, he⟩⟩
    refine List.mem_filter.2 ⟨mem_condArgs.2 (Or.inl hp), decide_eq_true ?_⟩
    rintro rfl
    exact h.not_own hq hp

theorem GoodConds.vars (par : V → List V) (conds : List (V × List (CondRow V S K))) :
    (conds.map (condNode par)).map Node.var = conds.map Prod.fst := by
  rw [List.map_map]
  rfl

/-- The dict gives a network. -/
theorem GoodConds.network (h : GoodConds dom par conds) : IsNetwork dom (conds.map (condNode par)) where
  wf := by
    refine ⟨by rw [GoodConds.vars]; exact h.names, ?_, ?_, ?_⟩
    · intro n hn
      obtain ⟨q, hq, rfl⟩ := List.mem_map.1 hn
      exact mem_condArgs.2 (Or.inr rfl)
    · intro n hn
      obtain ⟨q, hq, rfl⟩ := List.mem_map.1 hn
      change (condArgs par q.1).Nodup
      unfold condArgs
      rw [List.nodup_append]
      refine ⟨(List.perm_insertionSort _ _).nodup_iff.2 (h.par_nodup q hq), List.nodup_singleton _, ?_⟩
      intro a ha b hb
      rw [List.mem_singleton] at hb
      rintro rfl
      rw [hb, List.mem_insertionSort] at ha
      exact h.not_own hq ha
    · intro n hn a ha
      obtain ⟨q, hq, rfl⟩ := List.mem_map.1 hn
      rw [GoodConds.vars]
      rcases mem_condArgs.1 ha with h1 | rfl
      · exact h.par_known q hq a h1
      · exact List.mem_map_of_mem hq
  nonempty := by
    rw [Ne, List.map_eq_nil_iff]
    exact h.nonempty
  acyclic := acyclic_mono (fun e he => (h.arrows_eq e.1 e.2).1 he) h.acyclic
  connected := by
    intro u hu w hw
    rw [GoodConds.vars] at hu hw
    exact Graph.wconn_mono (fun e he => (h.arrows_eq e.1 e.2).2 he) (h.connected u hu w hw)
  states_nodup := by
    intro n hn
    obtain ⟨q, hq, rfl⟩ := List.mem_map.1 hn
    exact h.dom_nodup q hq
  nonneg := by
    intro n hn x hx
    obtain ⟨q, hq, rfl⟩ := List.mem_map.1 hn
    rw [h.fn hq (hx q.1 (mem_condArgs.2 (Or.inr rfl)))]
    obtain ⟨r, hr, -, hp⟩ := h.row hq (x := x) fun a ha => hx a (mem_condArgs.2 (Or.inl ha))
    rw [hp (x q.1) x (fun _ _ => rfl) rfl]
    cases hl : r.probs.lookup (x q.1) with
    | none => exact le_refl _
    | some p => exact h.nonneg q hq r hr _ (lookup_mem hl)
  normalised := by
    intro n hn x hx
    obtain ⟨q, hq, rfl⟩ := List.mem_map.1 hn
    obtain ⟨r, hr, -, hp⟩ := h.row hq (x := x) fun a ha => hx a (mem_condArgs.2 (Or.inl ha)) (by
      rintro rfl
      exact h.not_own hq ha)
    have : ((dom q.1).map fun s => (condNode par q).fn ((condNode par q).args.map (update x q.1 s))) =
        (dom q.1).map fun s => (r.probs.lookup s).getD 0 := by
      apply List.map_congr_left
      intro s hs
      rw [h.fn hq (by rw [update_self]; exact hs)]
      refine hp s _ ?_ (update_self _ _ _)
      intro a ha
      rw [update_of_ne]
      rintro rfl
      exact h.not_own hq ha
    change ((dom q.1).map fun s => (condNode par q).fn ((condNode par q).args.map (update x q.1 s))).sum = 1
    rw [this, sum_lookup (h.dom_nodup q hq) (h.keys q hq r hr), h.sum_one q hq r hr]

theorem GoodConds.mass (h : GoodConds dom par conds) (x₀ : V → S) (A : (V → S) → Prop) [DecidablePred A] :
    massOf dom (conds.map (condNode par)) x₀ A = condMass dom conds x₀ A := by
  unfold massOf condMass
  rw [GoodConds.vars]
  congr 1
  apply List.map_congr_left
  intro x hx
  have hv := worlds_valid (List.mem_filter.1 hx).1
  unfold joint
  rw [List.map_map]
  congr 1
  apply List.map_congr_left
  intro q hq
  exact h.fn hq ((hv q.1).1 (List.mem_map_of_mem hq))

theorem GoodConds.point (h : GoodConds dom par conds) : ∃ x : V → S, ∀ a ∈ conds.map Prod.fst, x a ∈ dom a := by
  obtain ⟨q, hq⟩ := List.exists_mem_of_ne_nil _ h.nonempty
  obtain ⟨s, -⟩ := List.exists_mem_of_ne_nil _ (h.dom_ne q hq)
  refine ⟨fun a => (dom a).headD s, ?_⟩
  intro a ha
  obtain ⟨q, hq, rfl⟩ := List.mem_map.1 ha
  have := h.dom_ne q hq
  dsimp only
  cases hd : dom q.1 with
  | nil => exact absurd hd this
  | cons t l => exact List.mem_cons_self

/-- The domain of a variable is the set of the values with a probability. -/
theorem GoodConds.values (h : GoodConds dom par conds) {q} (hq : q ∈ conds) (s : S) : s ∈ dom q.1 ↔ s ∈ condValues q.2 := by
  unfold condValues
  rw [List.mem_flatMap]
  constructor
  · intro hs
    obtain ⟨x, hx⟩ := h.point
    obtain ⟨r, hr, -⟩ := h.complete q hq x fun a ha => hx a (h.par_known q hq a ha)
    exact ⟨r, hr, (h.keys q hq r hr).mem_iff.2 hs⟩
  · rintro ⟨r, hr, hs⟩
    exact (h.keys q hq r hr).mem_iff.1 hs

/-- The function of a variable. -/
theorem GoodConds.makeNodeFunc (h : GoodConds dom par conds) {q} (hq : q ∈ conds) :
    makeNodeFunc q.1 q.2 = some ⟨condArgs par q.1, fun xs => (condEntries q.1 q.2).reverse.lookup ((condArgs par q.1).zip xs)⟩ := by
  unfold BBN.makeNodeFunc
  have hall : ∀ k ∈ condEntries q.1 q.2, k.1.map Prod.fst = condArgs par q.1 := by
    intro k hk
    obtain ⟨r, hr, hk⟩ := List.mem_flatMap.1 hk
    obtain ⟨p, -, rfl⟩ := List.mem_map.1 hk
    rw [List.map_append, map_fst_sampleKey, insertionSort_perm_eq (h.givens q hq r hr)]
    rfl
  have hne : condEntries q.1 q.2 ≠ [] := by
    obtain ⟨x, hx⟩ := h.point
    obtain ⟨r, hr, -⟩ := h.complete q hq x fun a ha => hx a (h.par_known q hq a ha)
    obtain ⟨s, hs⟩ := List.exists_mem_of_ne_nil _ (h.dom_ne q hq)
    obtain ⟨p, hp, -⟩ := List.mem_map.1 ((h.keys q hq r hr).mem_iff.2 hs)
    exact List.ne_nil_of_mem (List.mem_flatMap.2 ⟨r, hr, List.mem_map_of_mem hp⟩)
  rw [List.getLast?_eq_some_getLast hne, Option.map_some, hall _ (List.getLast_mem hne)]

theorem mapM_some' {α β : Type} {f : α → Option β} {g : α → β} {l : List α} (h : ∀ a ∈ l, f a = some (g a)) :
    l.mapM f = some (l.map g) := by
  induction l with
  | nil => rfl
  | cons a l ih =>
    rw [List.mapM_cons, h a List.mem_cons_self, ih fun a ha => h a (List.mem_cons_of_mem _ ha)]
    rfl

theorem GoodConds.condFns (h : GoodConds dom par conds) : condFns conds =
    some (conds.map fun q => ⟨condArgs par q.1, fun xs => (condEntries q.1 q.2).reverse.lookup ((condArgs par q.1).zip xs)⟩) :=
  mapM_some' fun _ hq => h.makeNodeFunc hq

theorem mem_valueLists {dom : V → List S} {vs : List V} (hn : vs.Nodup) {xs : List S} (h : xs ∈ valueLists dom vs) (x₀ : V → S) :
    ∃ x : V → S, xs = vs.map x ∧ ∀ v ∈ vs, x v ∈ dom v := by
  induction vs generalizing xs with
  | nil =>
    rw [valueLists, List.mem_singleton] at h
    exact ⟨x₀, h, by simp⟩
  | cons v vs ih =>
    rw [valueLists, List.mem_flatMap] at h
    obtain ⟨s, hs, h⟩ := h
    obtain ⟨ys, hy, rfl⟩ := List.mem_map.1 h
    rw [List.nodup_cons] at hn
    obtain ⟨x, rfl, hx⟩ := ih hn.2 hy
    refine ⟨update x v s, ?_, ?_⟩
    · rw [List.map_cons, update_self]
      congr 1
      apply List.map_congr_left
      intro a ha
      rw [update_of_ne]
      rintro rfl
      exact hn.1 ha
    · intro a ha
      by_cases he : a = v
      · subst he
        rw [update_self]
        exact hs
      · rw [update_of_ne he]
        exact hx a ((List.mem_cons.1 ha).resolve_left he)

/-- Every combination of values has an entry. -/
theorem GoodConds.noMissing (h : GoodConds dom par conds) :
    (((BBN.condFns conds).getD []).any fun f => (valueLists dom f.args).any fun xs => (f.call xs).isNone) = false := by
  rw [h.condFns, Option.getD_some, List.any_eq_false]
  intro f hf
  obtain ⟨q, hq, rfl⟩ := List.mem_map.1 hf
  rw [Bool.not_eq_true, List.any_eq_false]
  intro xs hxs
  obtain ⟨x₀, -⟩ := h.point
  obtain ⟨x, rfl, hx⟩ := mem_valueLists (h.network.wf.args_nodup _ (List.mem_map_of_mem hq)) hxs x₀
  have hx : ∀ v ∈ condArgs par q.1, x v ∈ dom v := hx
  change ¬ ((condEntries q.1 q.2).reverse.lookup ((condArgs par q.1).zip ((condArgs par q.1).map x))).isNone = true
  rw [zip_map_self, condEntries_lookup (h.givens q hq) (fun r hr => (h.keys q hq r hr).nodup_iff.2 (h.dom_nodup q hq))
    fun r hr => (h.keys q hq r hr).mem_iff.2 (hx q.1 (mem_condArgs.2 (Or.inr rfl)))]
  obtain ⟨r₀, hr₀, ha₀⟩ := h.complete q hq x fun a ha => hx a (mem_condArgs.2 (Or.inl ha))
  cases hf : q.2.reverse.find? fun r => decide (Agrees r.givens x) with
  | none =>
    rw [List.find?_eq_none] at hf
    exact absurd (decide_eq_true ha₀) (hf r₀ (List.mem_reverse.2 hr₀))
  | some r =>
    rw [Option.bind_some]
    have hr := List.mem_reverse.1 (List.mem_of_find?_eq_some hf)
    obtain ⟨p, hp, hpx⟩ := List.mem_map.1 ((h.keys q hq r hr).mem_iff.2 (hx q.1 (mem_condArgs.2 (Or.inr rfl))))
    rw [lookup_nodup ((h.keys q hq r hr).nodup_iff.2 (h.dom_nodup q hq)) (a := x q.1) (b := p.2) (hpx ▸ hp)]
    simp

/-- Building succeeds, whatever the order of the dict and of the entries. -/
theorem GoodConds.build (h : GoodConds dom par conds) :
    ∃ nodes, buildConditionals conds = .ok nodes ∧ nodes.Perm (conds.map (condNode par)) := by
  unfold buildConditionals
  rw [h.condFns]
  dsimp only
  obtain ⟨res, h1, h2, -⟩ := getOriginalFactors_spec h.network.wf h.network.acyclic
  have : ((conds.map fun q => (⟨condArgs par q.1, fun xs => (condEntries q.1 q.2).reverse.lookup ((condArgs par q.1).zip xs)⟩ :
      CondFn V S K)).map CondFn.toFactor) = (conds.map (condNode par)).map Node.toFactor := by
    rw [List.map_map, List.map_map]
    rfl
  rw [this, h1, if_neg]
  · exact ⟨res, rfl, h2⟩
  · rw [List.isEmpty_iff, List.map_eq_nil_iff]
    exact h.nonempty

/-- The values of the variables, as the keys of an answer. -/
def condKeys (dom : V → List S) (conds : List (V × List (CondRow V S K))) : List (V × S) :=
  conds.flatMap fun q => (dom q.1).map fun s => (q.1, s)

theorem GoodConds.query (h : GoodConds dom par conds) (nd : Nondet V) (ev : List (V × S)) :
    ∃ nodes : List (Node V S K), IsNetwork dom nodes ∧ (nodes.map Node.var).Perm (conds.map Prod.fst) ∧
      (∀ (x₀ : V → S) (A : (V → S) → Prop) [DecidablePred A], massOf dom nodes x₀ A = condMass dom conds x₀ A) ∧
      (allStates dom nodes).Perm (condKeys dom conds) ∧
      condQuery nd dom conds ev = (match BBN.query nd dom nodes ev with
        | .error e => .error (.of e)
        | .ok res => .ok res) := by
  obtain ⟨nodes, h1, h2⟩ := h.build
  refine ⟨nodes, h.network.perm h2.symm, ?_, ?_, ?_, ?_⟩
  · rw [← GoodConds.vars par conds]
    exact h2.map _
  · intro x₀ A _
    rw [massOf_perm h2, h.mass]
  · have := h2.flatMap_right fun n : Node V S K => (dom n.var).map fun s => (n.var, s)
    rw [List.flatMap_map] at this
    exact this
  · unfold condQuery
    rw [h1]
    dsimp only
    rw [if_neg]
    rw [h.noMissing]
    exact Bool.false_ne_true

/-- C97.  For evidence of positive probability, the answer has one entry for every value of every variable, and each is the exact
conditional probability of the value under the product of the probabilities in the dict. -/
theorem conditionals_query_exact (h : GoodConds dom par conds) {nd : Nondet V} (hnd : nd.Legal) {x₀ : V → S}
    (hx₀ : ∀ v ∈ conds.map Prod.fst, x₀ v ∈ dom v) {ev : List (V × S)} (hk : (ev.map Prod.fst).Nodup)
    (hev : ∀ p ∈ ev, p.1 ∈ conds.map Prod.fst ∧ p.2 ∈ dom p.1) (hpos : 0 < condMass dom conds x₀ (Agrees ev)) :
    ∃ res, condQuery nd dom conds ev = .ok res ∧ (res.map Prod.fst).Perm (condKeys dom conds) ∧
      (∀ v s p, ((v, s), p) ∈ res →
        p = condMass dom conds x₀ (fun x => Agrees ev x ∧ x v = s) / condMass dom conds x₀ (Agrees ev) ∧ 0 ≤ p) ∧
      (∀ v ∈ conds.map Prod.fst, ((res.filter (·.1.1 = v)).map (·.2)).sum = 1) := by
  obtain ⟨nodes, hN, hp, hm, hs, hq⟩ := h.query nd ev
  rw [← hm] at hpos
  obtain ⟨res, h1, h2, h3, h4, -⟩ := query_conditional hnd hN (fun v hv => hx₀ v (hp.mem_iff.1 hv)) hk
    (fun p hp' => ⟨hp.mem_iff.2 (hev p hp').1, (hev p hp').2⟩) hpos
  rw [hq, h1]
  refine ⟨res, rfl, h2.trans hs, ?_, fun v hv => h4 v (hp.mem_iff.2 hv)⟩
  intro v s p hr
  rw [← hm, ← hm]
  exact h3 v s p hr

/-- C97.  Without evidence nothing can be impossible: the probabilities in the dict add up to one. -/
theorem conditionals_total (h : GoodConds dom par conds) {x₀ : V → S} (hx₀ : ∀ v ∈ conds.map Prod.fst, x₀ v ∈ dom v) :
    condMass dom conds x₀ (Agrees []) = 1 := by
  rw [← h.mass]
  have hN := h.network
  have hx : ∀ v ∈ (conds.map (condNode par)).map Node.var, x₀ v ∈ dom v := by
    rw [GoodConds.vars]
    exact hx₀
  obtain ⟨dom', hd, -, hv⟩ := exists_total_dom hN.states_nodup hx
  rw [← massOf_dom_congr hd, ← massOf_total hN.wf hN.acyclic (hN.congr hd).normalised hv]
  exact massOf_congr (by simp [Agrees])

/-- C97.  Evidence of probability zero gives zero everywhere. -/
theorem conditionals_query_impossible (h : GoodConds dom par conds) {nd : Nondet V} (hnd : nd.Legal) {x₀ : V → S}
    (hx₀ : ∀ v ∈ conds.map Prod.fst, x₀ v ∈ dom v) {ev : List (V × S)} (hk : (ev.map Prod.fst).Nodup)
    (hev : ∀ p ∈ ev, p.1 ∈ conds.map Prod.fst ∧ p.2 ∈ dom p.1) (hzero : condMass dom conds x₀ (Agrees ev) = 0) :
    ∃ res, condQuery nd dom conds ev = .ok res ∧ (res.map Prod.fst).Perm (condKeys dom conds) ∧
      ∀ v s p, ((v, s), p) ∈ res → p = 0 := by
  obtain ⟨nodes, hN, hp, hm, hs, hq⟩ := h.query nd ev
  rw [← hm] at hzero
  obtain ⟨res, h1, h2, h3⟩ := query_impossible hnd hN (fun v hv => hx₀ v (hp.mem_iff.1 hv)) hk
    (fun p hp' => ⟨hp.mem_iff.2 (hev p hp').1, (hev p hp').2⟩) hzero
  rw [hq, h1]
  exact ⟨res, rfl, h2.trans hs, h3⟩

/-- C97.  An exception is raised exactly for evidence on an unknown variable or with a value without a probability. -/
theorem conditionals_query_raises_iff (h : GoodConds dom par conds) {nd : Nondet V} (hnd : nd.Legal)
    {ev : List (V × S)} (hk : (ev.map Prod.fst).Nodup) :
    ((∃ e, condQuery nd dom conds ev = .error e) ↔ ∃ p ∈ ev, p.1 ∉ conds.map Prod.fst ∨ p.2 ∉ dom p.1) ∧
    (∀ e, condQuery nd dom conds ev = .error e → e = .of .variableNotInGraph ∨ e = .of .valueNotInDomain) := by
  obtain ⟨nodes, hN, hp, hm, hs, hq⟩ := h.query nd ev
  obtain ⟨x₀, hx₀⟩ := h.point
  obtain ⟨h1, h2⟩ := query_raises_iff hnd hN (fun v hv => hx₀ v (hp.mem_iff.1 hv)) hk
  rw [hq]
  have h3 : (∃ p ∈ ev, p.1 ∉ nodes.map Node.var ∨ p.2 ∉ dom p.1) ↔ ∃ p ∈ ev, p.1 ∉ conds.map Prod.fst ∨ p.2 ∉ dom p.1 := by
    simp only [hp.mem_iff]
  rw [h3] at h1
  cases hr : BBN.query nd dom nodes ev with
  | error e =>
    refine ⟨⟨fun _ => h1.1 ⟨e, hr⟩, fun _ => ⟨_, rfl⟩⟩, ?_⟩
    intro e' he
    simp only [Except.error.injEq] at he
    subst he
    rcases h2 e hr with rfl | rfl <;> simp
  | ok res =>
    refine ⟨⟨fun h' => ?_, fun h' => ?_⟩, fun e he => by simp at he⟩
    · obtain ⟨e, he⟩ := h'
      simp at he
    obtain ⟨e, he⟩ := h1.2 h'
    rw [hr] at he
    cases he

omit [LinearOrder K] [IsStrictOrderedRing K] in
/-- C97.  `key_` is not bound exactly if some variable has no probability at all. -/
theorem conditionals_unbound_iff (conds : List (V × List (CondRow V S K))) :
    buildConditionals conds = .error .unbound ↔ ∃ q ∈ conds, ∀ r ∈ q.2, r.probs = [] := by
  have h1 : ∀ q : V × List (CondRow V S K), makeNodeFunc q.1 q.2 = none ↔ ∀ r ∈ q.2, r.probs = [] := by
    intro q
    unfold makeNodeFunc condEntries
    simp
  have h2 : ∀ l : List (V × List (CondRow V S K)),
      (l.mapM fun q => makeNodeFunc q.1 q.2) = none ↔ ∃ q ∈ l, makeNodeFunc q.1 q.2 = none := by
    intro l
    induction l with
    | nil => simp
    | cons q l ih =>
      rw [List.mapM_cons]
      cases hq : makeNodeFunc q.1 q.2 with
      | none => simp [hq]
      | some f =>
        cases hl : l.mapM fun q => makeNodeFunc q.1 q.2 with
        | none => simpa [hq] using ih.1 hl
        | some fs =>
          rw [hl] at ih
          simpa [hq] using ih
  have h3 : condFns conds = none ↔ ∃ q ∈ conds, ∀ r ∈ q.2, r.probs = [] := by
    unfold condFns
    rw [h2]
    simp only [h1]
  rw [← h3]
  unfold buildConditionals
  cases condFns conds with
  | none => simp
  | some fs =>
    dsimp only
    split_ifs
    · simp
    · cases getOriginalFactors (fs.map CondFn.toFactor) <;> simp

end

/-! ### An example: a child with two parents, given in either order, and an entry that is given twice -/

/-- The dict of the example. -/
def exConds : List (ℕ × List (CondRow ℕ Bool ℚ)) :=
  [(2, [⟨[(1, true), (0, true)], [(true, 9/10), (false, 1/10)]⟩, ⟨[(0, true), (1, false)], [(false, 1/2), (true, 1/2)]⟩,
      ⟨[(0, false), (1, true)], [(true, 0), (false, 1)]⟩, ⟨[(1, false), (0, false)], [(true, 1), (false, 0)]⟩,
      ⟨[(1, false), (0, false)], [(true, 1/4), (false, 3/4)]⟩]),
   (0, [⟨[], [(true, 1/5), (false, 4/5)]⟩]), (1, [⟨[], [(true, 3/5), (false, 2/5)]⟩])]

theorem exConds_good : GoodConds (fun _ => [true, false]) (fun v => if v = 2 then [1, 0] else []) exConds where
  nonempty := by simp [exConds]
  names := by decide
  par_nodup := by decide
  par_known := by decide
  acyclic := acyclic_of_lt (by decide)
  connected := by
    have h0 : ∀ u ∈ exConds.map Prod.fst,
        Graph.WConn (exConds.flatMap fun q => (if q.1 = 2 then [1, 0] else []).map fun a => (a, q.1)) 2 u := by
      intro u hu
      have hu : u = 2 ∨ u = 0 ∨ u = 1 := by simpa [exConds] using hu
      rcases hu with rfl | rfl | rfl
      · exact Relation.ReflTransGen.refl
      · exact Graph.WConn.symm (Graph.wconn_of_mem (by decide))
      · exact Graph.WConn.symm (Graph.wconn_of_mem (by decide))
    intro u hu w hw
    exact (Graph.WConn.symm (h0 u hu)).trans (h0 w hw)
  dom_nodup := by decide
  dom_ne := by decide
  givens := by decide
  complete := by
    intro q hq x _
    simp only [exConds, List.mem_cons, List.not_mem_nil, or_false] at hq
    rcases hq with rfl | rfl | rfl
    · cases h0 : x 0 <;> cases h1 : x 1
      · exact ⟨⟨[(1, false), (0, false)], [(true, 1), (false, 0)]⟩, by simp, by simp [Agrees, h0, h1]⟩
      · exact ⟨⟨[(0, false), (1, true)], [(true, 0), (false, 1)]⟩, by simp, by simp [Agrees, h0, h1]⟩
      · exact ⟨⟨[(0, true), (1, false)], [(false, 1/2), (true, 1/2)]⟩, by simp, by simp [Agrees, h0, h1]⟩
      · exact ⟨⟨[(1, true), (0, true)], [(true, 9/10), (false, 1/10)]⟩, by simp, by simp [Agrees, h0, h1]⟩
    · simp [Agrees]
    · simp [Agrees]
  keys := by decide
  nonneg := by decide +kernel
  sum_one := by decide +kernel

theorem exConds_mass : 0 < condMass (fun _ => [true, false]) exConds (fun _ => true) (Agrees [(2, true)]) ∧
    condMass (fun _ => [true, false]) exConds (fun _ => true) (Agrees [(2, true), (0, false), (1, true)]) = 0 := by
  decide +kernel

/-- In the example the second entry for the same values of the parents counts. -/
theorem exConds_last : condProb (2, (exConds.headD (0, [])).2) (fun v => decide (v = 2)) = 1/4 := by decide +kernel

end Verif.BBN
