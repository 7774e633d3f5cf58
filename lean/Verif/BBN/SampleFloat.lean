import Verif.BBN.SampleProps
import Verif.BBN.EngineFloatProps

/-!
# C94: sampling in double precision

The program of `Verif.BBN.Sample` is run on numbers whose operations round, see `Verif.BBN.Rounding`.
-/

namespace Verif.BBN
open Function

section
variable {V S : Type} [LinearOrder V] [DecidableEq S]

/-- A network with tables in double precision: the hypotheses of C85. -/
structure FloatNet (dom : V → List S) (nodes : List (Node V S Dbl)) : Prop where
  wf : NodesWF nodes
  nonempty : nodes ≠ []
  connected : Connected nodes
  states_nodup : ∀ n ∈ nodes, (dom n.var).Nodup
  nonneg : NonNeg dom (nodes.map Node.exact)

/-- The nodes with their numbers read exactly. -/
abbrev exactNodes (nodes : List (Node V S Dbl)) : List (Node V S ℚ) := nodes.map Node.exact

/-- What the products of the rounded tables add up to; one up to rounding. -/
def totalMass (dom : V → List S) (nodes : List (Node V S Dbl)) (x₀ : V → S) : ℚ :=
  massOf dom (exactNodes nodes) x₀ fun _ => True

/-- The probability of state `s` of `v` given the sample so far. -/
def condOf (dom : V → List S) (nodes : List (Node V S Dbl)) (x₀ : V → S) (sm : List (V × S)) (v : V) (s : S) : ℚ :=
  massOf dom (exactNodes nodes) x₀ (fun x => Agrees sm x ∧ x v = s) / massOf dom (exactNodes nodes) x₀ (Agrees sm)

/-- The first draw without evidence is from masses that are not normalised. -/
def scaleOf (dom : V → List S) (nodes : List (Node V S Dbl)) (x₀ : V → S) (sm : List (V × S)) : ℚ :=
  if sm = [] then totalMass dom nodes x₀ else 1

variable {nd : Nondet V} {dom : V → List S} {nodes : List (Node V S Dbl)} {x₀ : V → S}

/-! ### Masses -/

theorem FloatNet.total_dom (hN : FloatNet dom nodes) (hx₀ : ∀ v ∈ nodes.map Node.var, x₀ v ∈ dom v) :
    ∃ dom', (∀ v ∈ (exactNodes nodes).map Node.var, dom' v = dom v) ∧ (∀ v, (dom' v).Nodup) ∧ Valid dom' x₀ ∧
      NonNeg dom' (exactNodes nodes) := by
  obtain ⟨dom', h, hd, hx⟩ := exists_total_dom (nodes := exactNodes nodes) (dom := dom) (x₀ := x₀) (by
    intro n hn
    obtain ⟨m, hm, rfl⟩ := List.mem_map.1 hn
    exact hN.states_nodup m hm) (by rw [map_var_exact]; exact hx₀)
  refine ⟨dom', h, hd, hx, ?_⟩
  intro n hn x hx
  exact hN.nonneg n hn x fun a ha => by rw [← h a (hN.wf.exact.args_sub n hn a ha)]; exact hx a ha

theorem FloatNet.mass_nonneg (hN : FloatNet dom nodes) (hx₀ : ∀ v ∈ nodes.map Node.var, x₀ v ∈ dom v)
    (A : (V → S) → Prop) [DecidablePred A] : 0 ≤ massOf dom (exactNodes nodes) x₀ A := by
  obtain ⟨dom', h, -, hx, hp⟩ := hN.total_dom hx₀
  rw [← massOf_dom_congr h]
  exact massOf_nonneg hp hx A

theorem FloatNet.mass_mono (hN : FloatNet dom nodes) (hx₀ : ∀ v ∈ nodes.map Node.var, x₀ v ∈ dom v)
    {A B : (V → S) → Prop} [DecidablePred A] [DecidablePred B] (hAB : ∀ x, A x → B x) :
    massOf dom (exactNodes nodes) x₀ A ≤ massOf dom (exactNodes nodes) x₀ B := by
  obtain ⟨dom', h, -, hx, hp⟩ := hN.total_dom hx₀
  rw [← massOf_dom_congr h, ← massOf_dom_congr h]
  exact massOf_mono hp hx hAB

/-- The conditional probabilities of the states of a variable add up to one. -/
theorem FloatNet.cond_sum (hN : FloatNet dom nodes) (hx₀ : ∀ v ∈ nodes.map Node.var, x₀ v ∈ dom v) {sm : List (V × S)}
    (hpos : 0 < massOf dom (exactNodes nodes) x₀ (Agrees sm)) {v : V} (hv : v ∈ nodes.map Node.var) :
    ((dom v).map (condOf dom nodes x₀ sm v)).sum = 1 := by
  obtain ⟨dom', h, hd, hx, hp⟩ := hN.total_dom hx₀
  have hv' : v ∈ (exactNodes nodes).map Node.var := by rw [map_var_exact]; exact hv
  have hs := massOf_split hd hN.wf.exact (Agrees sm) hv' x₀
  rw [h v hv'] at hs
  simp only [massOf_dom_congr h] at hs
  unfold condOf
  simp only [div_eq_mul_inv]
  rw [List.sum_map_mul_right, hs, mul_inv_cancel₀ hpos.ne']

theorem FloatNet.cond_nonneg (hN : FloatNet dom nodes) (hx₀ : ∀ v ∈ nodes.map Node.var, x₀ v ∈ dom v) (sm : List (V × S)) (v : V)
    (s : S) : 0 ≤ condOf dom nodes x₀ sm v s := div_nonneg (hN.mass_nonneg hx₀ _) (hN.mass_nonneg hx₀ _)

omit [DecidableEq S] in
theorem sampleKey_nil_iff {sm sm' : List (V × S)} (h : sm.Perm sm') : sm = [] ↔ sm' = [] := by
  constructor <;> rintro rfl
  · exact h.nil_eq.symm
  · exact h.eq_nil

/-! ### Selection -/

/-- The running sum of the values, as the program computes it. -/
def runSum (l : List (S × Dbl)) : ℚ := Float.floatSum (l.map fun q => q.2.val)

/-- The running sum from `a` on. -/
def runFrom (a : ℚ) (l : List (S × Dbl)) : ℚ := (l.map fun q => q.2.val).foldl (fun a x => Float.rnd (a + x)) a

omit [DecidableEq S] in
theorem cumulative_double {dens : List (S × Dbl)} (hd : ∀ q ∈ dens, Float.IsDouble q.2.val) :
    cumulative dens = cumulativeFrom 0 dens := by
  cases dens with
  | nil => rfl
  | cons q l =>
    obtain ⟨s, p⟩ := q
    have h := hd (s, p) List.mem_cons_self
    have h0 : (0 : Dbl) + p = p := by
      ext
      rw [Fl.add_val, Fl.zero_val, zero_add]
      exact h
    simp only [cumulative, cumulativeFrom, h0]

omit [DecidableEq S] in
theorem le_runFrom {l : List (S × Dbl)} (hp : ∀ q ∈ l, 0 ≤ q.2.val) {a : ℚ} (ha : Float.IsDouble a) (h0 : 0 ≤ a) :
    a ≤ runFrom a l :=
  Float.le_foldl (by
    intro x hx
    obtain ⟨q, hq, rfl⟩ := List.mem_map.1 hx
    exact hp q hq) ha h0

omit [DecidableEq S] in
theorem scan_double_aux (dens : List (S × Dbl)) (hp : ∀ q ∈ dens, 0 ≤ q.2.val) (a r : Dbl) (ha : Float.IsDouble a.val)
    (h0 : 0 ≤ a.val) (har : a < r) (s : S) :
    scan r (cumulativeFrom a dens) = .ok s ↔
      ∃ l₁ p l₂, dens = l₁ ++ (s, p) :: l₂ ∧ runFrom a.val l₁ < r.val ∧ r.val ≤ runFrom a.val (l₁ ++ [(s, p)]) := by
  induction dens generalizing a with
  | nil => simp [cumulativeFrom, scan]
  | cons q dens ih =>
    obtain ⟨s₀, p₀⟩ := q
    have hp' : ∀ q ∈ dens, 0 ≤ q.2.val := fun q hq => hp q (List.mem_cons_of_mem _ hq)
    have hp0 : 0 ≤ p₀.val := hp _ List.mem_cons_self
    have hd' : Float.IsDouble (a + p₀).val := Float.isDouble_rnd _
    have h0' : 0 ≤ (a + p₀).val := Float.rnd_nonneg (add_nonneg h0 hp0)
    have hcons : ∀ l, runFrom a.val ((s₀, p₀) :: l) = runFrom (a + p₀).val l := fun l => rfl
    simp only [cumulativeFrom, scan]
    by_cases h : a + p₀ < r
    · rw [if_pos h, ih hp' (a + p₀) hd' h0' h]
      constructor
      · rintro ⟨l₁, p, l₂, rfl, h1, h2⟩
        exact ⟨(s₀, p₀) :: l₁, p, l₂, rfl, by rw [hcons]; exact h1, by rw [List.cons_append, hcons]; exact h2⟩
      · rintro ⟨l₁, p, l₂, heq, h1, h2⟩
        cases l₁ with
        | nil =>
          simp only [List.nil_append, List.cons.injEq, Prod.mk.injEq] at heq
          obtain ⟨⟨rfl, rfl⟩, rfl⟩ := heq
          exact absurd h (not_lt.2 h2)
        | cons q l₁ =>
          simp only [List.cons_append, List.cons.injEq] at heq
          obtain ⟨rfl, rfl⟩ := heq
          refine ⟨l₁, p, l₂, rfl, ?_, ?_⟩
          · rwa [hcons] at h1
          · rwa [List.cons_append, hcons] at h2
    · rw [if_neg h]
      constructor
      · intro h'
        cases h'
        exact ⟨[], p₀, dens, rfl, har, not_lt.1 h⟩
      · rintro ⟨l₁, p, l₂, heq, h1, h2⟩
        cases l₁ with
        | nil =>
          simp only [List.nil_append, List.cons.injEq, Prod.mk.injEq] at heq
          obtain ⟨⟨rfl, rfl⟩, rfl⟩ := heq
          rfl
        | cons q l₁ =>
          simp only [List.cons_append, List.cons.injEq] at heq
          obtain ⟨rfl, rfl⟩ := heq
          exfalso
          apply h
          rw [hcons] at h1
          exact lt_of_le_of_lt (le_runFrom (fun q hq => hp' q (List.mem_append_left _ hq)) hd' h0') h1

omit [DecidableEq S] in
/-- The state chosen is the one whose slice, between two running sums, contains `r`. -/
theorem scan_double (dens : List (S × Dbl)) (hp : ∀ q ∈ dens, 0 ≤ q.2.val) (hd : ∀ q ∈ dens, Float.IsDouble q.2.val) (r : Dbl)
    (hr : 0 < r.val) (s : S) :
    scan r (cumulative dens) = .ok s ↔
      ∃ l₁ p l₂, dens = l₁ ++ (s, p) :: l₂ ∧ runSum l₁ < r.val ∧ r.val ≤ runSum (l₁ ++ [(s, p)]) := by
  rw [cumulative_double hd]
  exact scan_double_aux dens hp 0 r Float.isDouble_zero le_rfl hr s

omit [DecidableEq S] in
theorem scan_error (dens : List (S × Dbl)) (r : Dbl) {e : Err} (h : scan r dens = .error e) : e = .indexError := by
  induction dens with
  | nil => cases h; rfl
  | cons q l ih =>
    obtain ⟨s, c⟩ := q
    simp only [scan] at h
    split at h
    · exact ih h
    · cases h

omit [DecidableEq S] in
theorem scan_double_total (dens : List (S × Dbl)) (hd : ∀ q ∈ dens, Float.IsDouble q.2.val) (r : Dbl) (hr : 0 < r.val)
    (hle : r.val ≤ runSum dens) : ∃ s, scan r (cumulative dens) = .ok s := by
  rw [cumulative_double hd]
  have aux : ∀ (dens : List (S × Dbl)) (a : Dbl), a < r → r.val ≤ runFrom a.val dens →
      ∃ s, scan r (cumulativeFrom a dens) = .ok s := by
    intro dens
    induction dens with
    | nil => intro a h1 h2; exact absurd h1 (not_lt.2 h2)
    | cons q dens ih =>
      obtain ⟨s₀, p₀⟩ := q
      intro a h1 h2
      simp only [cumulativeFrom, scan]
      by_cases h : a + p₀ < r
      · rw [if_pos h]
        exact ih _ h h2
      · rw [if_neg h]; exact ⟨_, rfl⟩
  exact aux dens 0 hr hle

omit [DecidableEq S] in
/-- A state of probability zero has an empty slice. -/
theorem runSum_zero (l₁ : List (S × Dbl)) (s : S) {p : Dbl} (h : p.val = 0) : runSum (l₁ ++ [(s, p)]) = runSum l₁ := by
  unfold runSum Float.floatSum
  rw [List.map_append, List.foldl_append]
  simp only [List.map_cons, List.map_nil, List.foldl_cons, List.foldl_nil, h, add_zero]
  exact Float.foldl_isDouble _ Float.isDouble_zero

omit [DecidableEq S] in
theorem runSum_mono (l₁ l₂ : List (S × Dbl)) (hp : ∀ q ∈ l₁ ++ l₂, 0 ≤ q.2.val) : runSum l₁ ≤ runSum (l₁ ++ l₂) := by
  unfold runSum Float.floatSum
  rw [List.map_append, List.foldl_append]
  refine Float.le_foldl ?_ (Float.foldl_isDouble _ Float.isDouble_zero) (Float.le_foldl ?_ Float.isDouble_zero le_rfl) <;>
  · intro x hx
    obtain ⟨q, hq, rfl⟩ := List.mem_map.1 hx
    exact hp q (by simp [hq])

omit [DecidableEq S] in
theorem runSum_nonneg (l : List (S × Dbl)) (hp : ∀ q ∈ l, 0 ≤ q.2.val) : 0 ≤ runSum l := runSum_mono [] l hp

omit [DecidableEq S] in
/-- The running sum is the exact sum of the exact values, up to roundings. -/
theorem runSum_close {N : ℕ} (l : List (S × Dbl)) (f : S → ℚ) (h : ∀ q ∈ l, Close (1 / 2 ^ 53) N q.2.val (f q.1)) :
    Close (1 / 2 ^ 53) (N + l.length) (runSum l) (l.map fun q => f q.1).sum := by
  have h1 : List.Forall₂ (fun (a : Dbl) b => Close (1 / 2 ^ 53) N a.val b) (l.map Prod.snd) (l.map fun q => f q.1) := by
    rw [List.forall₂_map_left_iff, List.forall₂_map_right_iff, List.forall₂_same]
    exact h
  have h2 := foldl_add_sim rounds_double h1 le_rfl (acc := 0) (acc' := 0)
    ((Close.refl (u := 1 / 2 ^ 53) (le_refl (0 : ℚ))).mono rounds_double (Nat.zero_le N))
  rw [List.length_map, ← List.sum_eq_foldl (xs := l.map fun q => f q.1)] at h2
  have h3 : ((l.map Prod.snd).foldl (· + ·) (0 : Dbl)).val = runSum l := by
    have := pySum_val (l.map Prod.snd)
    rw [List.map_map] at this
    exact this
  rwa [h3] at h2

/-! ### Results -/

/-- A result that is close to the exact conditional probabilities given `sm`. -/
structure FlExact (N : ℕ) (dom : V → List S) (nodes : List (Node V S Dbl)) (x₀ : V → S) (sm : List (V × S))
    (res : Result V S Dbl) : Prop where
  keys : (res.map Prod.fst).Perm (allStates dom nodes)
  double : ∀ m ∈ res, Float.IsDouble m.2.val
  probs : ∀ v s p, ((v, s), p) ∈ res →
    Close (1 / 2 ^ 53) N p.val (condOf dom nodes x₀ sm v s * scaleOf dom nodes x₀ sm)

theorem FlExact.perm {N : ℕ} {l l' : List (V × S)} {res : Result V S Dbl} (h : FlExact N dom nodes x₀ l res) (hp : l.Perm l') :
    FlExact N dom nodes x₀ l' res where
  keys := h.keys
  double := h.double
  probs := by
    intro v s p hm
    have h1 := h.probs v s p hm
    have h2 : condOf dom nodes x₀ l' v s = condOf dom nodes x₀ l v s := by
      unfold condOf
      rw [massOf_congr (agrees_perm hp),
        massOf_congr (A := fun x => Agrees l x ∧ x v = s) (B := fun x => Agrees l' x ∧ x v = s)
          (fun x => by rw [agrees_perm hp])]
    have h3 : scaleOf dom nodes x₀ l' = scaleOf dom nodes x₀ l := by
      unfold scaleOf
      simp only [sampleKey_nil_iff hp]
    rw [h2, h3]
    exact h1

/-- Every cached result is close to exact. -/
def FlCacheOK (N : ℕ) (dom : V → List S) (nodes : List (Node V S Dbl)) (x₀ : V → S) (c : Cache V S Dbl) : Prop :=
  ∀ q ∈ c, FlExact N dom nodes x₀ q.1 q.2

/-- A partial sample that can occur. -/
structure FlGood (dom : V → List S) (nodes : List (Node V S Dbl)) (x₀ : V → S) (sm : List (V × S)) : Prop where
  keys : (sm.map Prod.fst).Nodup
  states : GoodEvidence dom nodes sm
  pos : 0 < massOf dom (exactNodes nodes) x₀ (Agrees sm)

/-- A bound on the sizes of the tables of the join tree. -/
def TablesLE (nd : Nondet V) (dom : V → List S) (nodes : List (Node V S Dbl)) (L : ℕ) : Prop :=
  ∀ jt, buildJoinTree nd nodes = .ok jt → ∀ c ∈ jt.cliques, ∏ v ∈ c, (dom v).length ≤ L

variable {L : ℕ}

theorem query_flExact (hnd : nd.Legal) (hN : FloatNet dom nodes) (hx₀ : ∀ v ∈ nodes.map Node.var, x₀ v ∈ dom v)
    (hL : TablesLE nd dom nodes L) {sm : List (V × S)} (hg : FlGood dom nodes x₀ sm) :
    ∃ res, query nd dom nodes sm = .ok res ∧ FlExact (answerBound nodes.length L) dom nodes x₀ sm res := by
  obtain ⟨res, h1, h2, -, h3⟩ := query_rounded_range rounds_double hnd hN.wf hN.nonempty hN.connected hN.states_nodup hx₀ hN.nonneg
    hg.keys hg.states hL
  refine ⟨res, h1, h2, ?_, ?_⟩
  · rintro ⟨⟨v, s⟩, p⟩ hm
    obtain ⟨⟨q, hq⟩, -⟩ := h3 v s p hm
    dsimp only
    rw [hq]
    exact Float.isDouble_rnd _
  · intro v s p hm
    have h4 := (h3 v s p hm).2
    have h5 : exactAnswer dom (nodes.map Node.exact) x₀ sm v s = condOf dom nodes x₀ sm v s * scaleOf dom nodes x₀ sm := by
      unfold exactAnswer condOf scaleOf
      by_cases he : sm = []
      · rw [if_pos he, if_pos he]
        have h6 : massOf dom (exactNodes nodes) x₀ (Agrees sm) = totalMass dom nodes x₀ := massOf_congr (by simp [he, Agrees])
        rw [← h6, div_mul_cancel₀ _ hg.pos.ne']
        exact massOf_congr (by simp [he, Agrees])
      · rw [if_neg he, if_neg he, mul_one]
    rwa [h5] at h4

theorem states_le (hnd : nd.Legal) (hN : FloatNet dom nodes) (hx₀ : ∀ v ∈ nodes.map Node.var, x₀ v ∈ dom v)
    (hL : TablesLE nd dom nodes L) : ∀ v ∈ nodes.map Node.var, (dom v).length ≤ L := by
  intro v hv
  obtain ⟨n, hn, rfl⟩ := List.mem_map.1 hv
  obtain ⟨res, -, -, h, -⟩ := query_rounded_range rounds_double hnd hN.wf hN.nonempty hN.connected hN.states_nodup hx₀ hN.nonneg
    (ev := []) (by simp) (by simp [GoodEvidence]) hL
  exact h n hn

theorem cachedQuery_double (hnd : nd.Legal) (hN : FloatNet dom nodes) (hx₀ : ∀ v ∈ nodes.map Node.var, x₀ v ∈ dom v)
    (hL : TablesLE nd dom nodes L) {c : Cache V S Dbl} (hc : FlCacheOK (answerBound nodes.length L) dom nodes x₀ c)
    {sm : List (V × S)} (hg : FlGood dom nodes x₀ sm) :
    ∃ c' res, cachedQuery nd dom nodes c sm = .ok (c', res) ∧ FlCacheOK (answerBound nodes.length L) dom nodes x₀ c' ∧
      FlExact (answerBound nodes.length L) dom nodes x₀ sm res := by
  unfold cachedQuery
  cases hl : c.lookup (sampleKey sm) with
  | some res => exact ⟨c, res, rfl, hc, (hc _ (lookup_mem hl)).perm (sampleKey_perm sm)⟩
  | none =>
    obtain ⟨res, h1, h2⟩ := query_flExact hnd hN hx₀ hL hg
    refine ⟨(sampleKey sm, res) :: c, res, by simp only [h1], ?_, h2⟩
    intro q hq
    rcases List.mem_cons.1 hq with rfl | hq
    · exact h2.perm (sampleKey_perm sm).symm
    · exact hc q hq

theorem FlGood.length_le {sm : List (V × S)} (hg : FlGood dom nodes x₀ sm) : sm.length ≤ nodes.length := by
  have : (sm.map Prod.fst).Subperm (nodes.map Node.var) := by
    apply List.subperm_of_subset hg.keys
    intro v hv
    obtain ⟨p, hp, rfl⟩ := List.mem_map.1 hv
    exact (hg.states p hp).1
  simpa using this.length_le

theorem FlGood.snoc {sm : List (V × S)} (hg : FlGood dom nodes x₀ sm) {v : V} {s : S}
    (hv : v ∈ nodes.map Node.var) (hnew : v ∉ sm.map Prod.fst) (hs : s ∈ dom v)
    (hpos : 0 < massOf dom (exactNodes nodes) x₀ (fun x => Agrees sm x ∧ x v = s)) :
    FlGood dom nodes x₀ (sm ++ [(v, s)]) where
  keys := by
    rw [List.map_append, List.nodup_append]
    refine ⟨hg.keys, by simp, ?_⟩
    intro a ha b hb
    simp only [List.map_cons, List.map_nil, List.mem_singleton] at hb
    rintro rfl
    exact hnew (hb ▸ ha)
  states := by
    intro p hp
    rcases List.mem_append.1 hp with hp | hp
    · exact hg.states p hp
    · rw [List.mem_singleton] at hp
      subst hp; exact ⟨hv, hs⟩
  pos := by rw [massOf_congr agrees_append]; exact hpos

/-- One step of the inner loop: the variable chosen depends on `pick` only, the slices on `pick` and the cache only. -/
theorem drawStep_double_spec (hnd : nd.Legal) (hN : FloatNet dom nodes) (hx₀ : ∀ v ∈ nodes.map Node.var, x₀ v ∈ dom v)
    (hL : TablesLE nd dom nodes L) {c : Cache V S Dbl} (hc : FlCacheOK (answerBound nodes.length L) dom nodes x₀ c)
    {sm : List (V × S)} (hg : FlGood dom nodes x₀ sm) (hlt : sm.length < nodes.length) (pick : ℕ) :
    ∃ v ∈ nodes.map Node.var, v ∉ sm.map Prod.fst ∧ ∃ c', FlCacheOK (answerBound nodes.length L) dom nodes x₀ c' ∧
      ∃ dens : List (S × Dbl), (dens.map Prod.fst).Perm (dom v) ∧ (∀ q ∈ dens, Float.IsDouble q.2.val) ∧
        (∀ q ∈ dens, Close (1 / 2 ^ 53) (answerBound nodes.length L) q.2.val
          (condOf dom nodes x₀ sm v q.1 * scaleOf dom nodes x₀ sm)) ∧
        ∀ r, drawStep nd dom nodes ⟨pick, r⟩ c sm =
          match scan r (cumulative dens) with
          | .error err => .error err
          | .ok s => .ok (c', sm ++ [(v, s)]) := by
  have hopen : (nodes.filter fun n => n.var ∉ sm.map Prod.fst) ≠ [] := by
    intro h
    have hsub : nodes.map Node.var ⊆ sm.map Prod.fst := by
      intro v hv
      obtain ⟨n, hn, rfl⟩ := List.mem_map.1 hv
      by_contra hcon
      have := List.filter_eq_nil_iff.1 h n hn
      simp only [decide_eq_true_eq, not_not] at this
      exact hcon this
    have := (List.subperm_of_subset hN.wf.nodup hsub).length_le
    simp at this
    omega
  have hidx : pick % (nodes.filter fun n => n.var ∉ sm.map Prod.fst).length <
      (nodes.filter fun n => n.var ∉ sm.map Prod.fst).length := Nat.mod_lt _ (List.length_pos_iff.2 hopen)
  obtain ⟨n, hn⟩ : ∃ n, (nodes.filter fun n => n.var ∉ sm.map Prod.fst)[pick %
      (nodes.filter fun n => n.var ∉ sm.map Prod.fst).length]? = some n := ⟨_, List.getElem?_eq_getElem hidx⟩
  have hnmem := List.mem_filter.1 (List.mem_of_getElem? hn)
  have hv : n.var ∈ nodes.map Node.var := List.mem_map_of_mem hnmem.1
  obtain ⟨c', res, h1, h2, h3⟩ := cachedQuery_double hnd hN hx₀ hL hc hg
  refine ⟨n.var, hv, by simpa using hnmem.2, c', h2, (res.filter (·.1.1 = n.var)).map fun m => (m.1.2, m.2), ?_, ?_, ?_, ?_⟩
  · rw [List.map_map]
    have h5 := (h3.keys.filter fun q => decide (q.1 = n.var)).map Prod.snd
    rw [allStates_filter hN.wf.nodup hv] at h5
    rw [List.filter_map, List.map_map] at h5
    exact h5
  · intro q hq
    obtain ⟨m, hm, rfl⟩ := List.mem_map.1 hq
    exact h3.double m (List.mem_filter.1 hm).1
  · intro q hq
    obtain ⟨m, hm, rfl⟩ := List.mem_map.1 hq
    obtain ⟨hm1, hm2⟩ := List.mem_filter.1 hm
    have hm2 : m.1.1 = n.var := of_decide_eq_true hm2
    rw [← hm2]
    exact h3.probs _ _ _ hm1
  · intro r
    unfold drawStep
    simp only [hn, h1]
    rfl

/-- The exact sum of the densities of one step. -/
theorem dens_sum (hN : FloatNet dom nodes) (hx₀ : ∀ v ∈ nodes.map Node.var, x₀ v ∈ dom v) {sm : List (V × S)}
    (hg : FlGood dom nodes x₀ sm) {v : V} (hv : v ∈ nodes.map Node.var) {dens : List (S × Dbl)}
    (hp : (dens.map Prod.fst).Perm (dom v)) :
    (dens.map fun q => condOf dom nodes x₀ sm v q.1 * scaleOf dom nodes x₀ sm).sum = scaleOf dom nodes x₀ sm := by
  rw [List.sum_map_mul_right]
  have h1 : (dens.map fun q => condOf dom nodes x₀ sm v q.1) = (dens.map Prod.fst).map (condOf dom nodes x₀ sm v) := by
    rw [List.map_map]; rfl
  rw [h1, (hp.map _).sum_eq, hN.cond_sum hx₀ hg.pos hv, one_mul]

theorem scaleOf_pos (hN : FloatNet dom nodes) (hx₀ : ∀ v ∈ nodes.map Node.var, x₀ v ∈ dom v) {sm : List (V × S)}
    (hg : FlGood dom nodes x₀ sm) : 0 < scaleOf dom nodes x₀ sm := by
  unfold scaleOf
  split
  · exact lt_of_lt_of_le hg.pos (hN.mass_mono hx₀ fun _ _ => trivial)
  · exact one_pos

theorem min_le_scaleOf (sm : List (V × S)) : min 1 (totalMass dom nodes x₀) ≤ scaleOf dom nodes x₀ sm := by
  unfold scaleOf
  split
  · exact min_le_right _ _
  · exact min_le_left _ _

/-- What every drawn number has to stay below so that no `IndexError` occurs. -/
def safeBound (dom : V → List S) (nodes : List (Node V S Dbl)) (x₀ : V → S) (L : ℕ) : ℚ :=
  (1 - (answerBound nodes.length L + L : ℕ) / 2 ^ 53) * min 1 (totalMass dom nodes x₀)

theorem safeBound_le (hN : FloatNet dom nodes) (hx₀ : ∀ v ∈ nodes.map Node.var, x₀ v ∈ dom v) {sm : List (V × S)}
    (hg : FlGood dom nodes x₀ sm) {v : V} (hv : v ∈ nodes.map Node.var) {dens : List (S × Dbl)}
    (hp : (dens.map Prod.fst).Perm (dom v)) (hlen : (dom v).length ≤ L)
    (hcl : ∀ q ∈ dens, Close (1 / 2 ^ 53) (answerBound nodes.length L) q.2.val
      (condOf dom nodes x₀ sm v q.1 * scaleOf dom nodes x₀ sm)) : safeBound dom nodes x₀ L ≤ runSum dens := by
  have h1 := runSum_close dens (fun s => condOf dom nodes x₀ sm v s * scaleOf dom nodes x₀ sm) hcl
  rw [dens_sum hN hx₀ hg hv hp] at h1
  have hl : dens.length ≤ L := by
    have := hp.length_eq
    rw [List.length_map] at this
    omega
  have h2 := (h1.mono rounds_double (m := answerBound nodes.length L + L) (by omega)).lo
  refine le_trans ?_ h2
  have hb : 1 + ((answerBound nodes.length L + L : ℕ) : ℚ) * (-(1 / 2 ^ 53)) ≤ (1 + -(1 / 2 ^ 53)) ^ (answerBound nodes.length L + L) :=
    one_add_mul_le_pow (by norm_num) _
  have hb' : 1 - ((answerBound nodes.length L + L : ℕ) : ℚ) / 2 ^ 53 ≤ (1 - 1 / 2 ^ 53) ^ (answerBound nodes.length L + L) := by
    calc _ = 1 + ((answerBound nodes.length L + L : ℕ) : ℚ) * (-(1 / 2 ^ 53)) := by ring
      _ ≤ _ := hb
      _ = _ := by rw [← sub_eq_add_neg]
  have h0 : (0 : ℚ) ≤ (1 - 1 / 2 ^ 53) ^ (answerBound nodes.length L + L) := pow_nonneg (by norm_num) _
  have hm0 : 0 ≤ min 1 (totalMass dom nodes x₀) := le_min zero_le_one (hN.mass_nonneg hx₀ _)
  unfold safeBound
  exact (mul_le_mul_of_nonneg_right hb' hm0).trans (mul_le_mul_of_nonneg_left (min_le_scaleOf sm) h0)

/-- One step with a positive random number: it raises `IndexError`, which a small enough number excludes, or draws a state that is
possible. -/
theorem drawStep_double (hnd : nd.Legal) (hN : FloatNet dom nodes) (hx₀ : ∀ v ∈ nodes.map Node.var, x₀ v ∈ dom v)
    (hL : TablesLE nd dom nodes L) {c : Cache V S Dbl} (hc : FlCacheOK (answerBound nodes.length L) dom nodes x₀ c)
    {sm : List (V × S)} (hg : FlGood dom nodes x₀ sm) (hlt : sm.length < nodes.length) (d : Draw Dbl) (hr : 0 < d.r.val) :
    (drawStep nd dom nodes d c sm = .error .indexError ∧ safeBound dom nodes x₀ L < d.r.val) ∨
    ∃ c' v s, drawStep nd dom nodes d c sm = .ok (c', sm ++ [(v, s)]) ∧ FlCacheOK (answerBound nodes.length L) dom nodes x₀ c' ∧
      FlGood dom nodes x₀ (sm ++ [(v, s)]) := by
  obtain ⟨v, hv, hnew, c', hc', dens, h1, hdb, h2, h4⟩ := drawStep_double_spec hnd hN hx₀ hL hc hg hlt d.pick
  have h5 := h4 d.r
  have hnn : ∀ q ∈ dens, 0 ≤ q.2.val := fun q hq => (h2 q hq).x_nonneg rounds_double
  cases hs : scan d.r (cumulative dens) with
  | error e =>
    rw [hs, scan_error _ _ hs] at h5
    refine Or.inl ⟨h5, ?_⟩
    by_contra hcon
    obtain ⟨s, hs'⟩ := scan_double_total dens hdb d.r hr
      ((not_lt.1 hcon).trans (safeBound_le hN hx₀ hg hv h1 (states_le hnd hN hx₀ hL v hv) h2))
    rw [hs] at hs'
    cases hs'
  | ok s =>
    rw [hs] at h5
    refine Or.inr ⟨c', v, s, h5, hc', ?_⟩
    obtain ⟨l₁, p, l₂, heq, h6, h7⟩ := (scan_double dens hnn hdb d.r hr s).1 hs
    have hmem : (s, p) ∈ dens := by rw [heq]; simp
    have hp0 : p.val ≠ 0 := fun h0 => by
      rw [runSum_zero l₁ s h0] at h7
      exact absurd h6 (not_lt.2 h7)
    apply hg.snoc hv hnew
    · exact h1.mem_iff.1 (List.mem_map_of_mem (f := Prod.fst) hmem)
    · refine lt_of_le_of_ne (hN.mass_nonneg hx₀ _) fun h0 => hp0 ?_
      rw [(h2 _ hmem).eq_zero_iff rounds_double]
      unfold condOf
      dsimp only
      rw [← h0, zero_div, zero_mul]

/-- Drawing one sample: it raises `IndexError`, or the sample extends the evidence and is complete and possible. -/
theorem drawLoop_double (hnd : nd.Legal) (hN : FloatNet dom nodes) (hx₀ : ∀ v ∈ nodes.map Node.var, x₀ v ∈ dom v)
    (hL : TablesLE nd dom nodes L) (fuel : ℕ) (rand : ℕ → Draw Dbl) (hr : ∀ i, 0 < (rand i).r.val) {c : Cache V S Dbl}
    (hc : FlCacheOK (answerBound nodes.length L) dom nodes x₀ c) {sm : List (V × S)} (hg : FlGood dom nodes x₀ sm)
    (hfuel : nodes.length ≤ sm.length + fuel) :
    (drawLoop nd dom nodes fuel rand c sm = .error .indexError ∧ ∃ i, safeBound dom nodes x₀ L < (rand i).r.val) ∨
    ∃ c' ext, drawLoop nd dom nodes fuel rand c sm = .ok (c', sm ++ ext) ∧
      FlCacheOK (answerBound nodes.length L) dom nodes x₀ c' ∧ FlGood dom nodes x₀ (sm ++ ext) ∧
      (sm ++ ext).length = nodes.length := by
  induction fuel generalizing rand c sm with
  | zero =>
    have hle := hg.length_le
    refine Or.inr ⟨c, [], ?_, hc, by simpa using hg, by simp; omega⟩
    simp only [drawLoop, List.append_nil]
    rw [if_neg (by omega)]
  | succ fuel ih =>
    have hle := hg.length_le
    by_cases hlt : sm.length < nodes.length
    · rcases drawStep_double hnd hN hx₀ hL hc hg hlt (rand 0) (hr 0) with ⟨h1, h2⟩ | ⟨c', v, s, h1, h2, h3⟩
      · refine Or.inl ⟨?_, 0, h2⟩
        simp only [drawLoop, if_pos hlt, h1]
      · rcases ih (fun i => rand (i + 1)) (fun i => hr (i + 1)) h2 h3 (by simp; omega) with
          ⟨k1, i, k2⟩ | ⟨c'', ext, k1, k2, k3, k4⟩
        · refine Or.inl ⟨?_, i + 1, k2⟩
          simp only [drawLoop, if_pos hlt, h1, k1]
        · refine Or.inr ⟨c'', (v, s) :: ext, ?_, k2, by simpa using k3, by simpa using k4⟩
          simp only [drawLoop, if_pos hlt, h1, k1]
          simp
    · refine Or.inr ⟨c, [], ?_, hc, by simpa using hg, by simp; omega⟩
      simp only [drawLoop, List.append_nil]
      rw [if_neg hlt]

/-- **C94.** In double precision, with evidence that is possible and positive random numbers, `draw_samples` either raises
`IndexError` or returns `n` samples, each of which starts with the evidence, gives every variable one of its states and has positive
probability.  `IndexError` is raised only if some random number is above `safeBound`, which is one up to rounding. -/
theorem draw_samples_double (hnd : nd.Legal) (hN : FloatNet dom nodes) (hx₀ : ∀ v ∈ nodes.map Node.var, x₀ v ∈ dom v)
    (hL : TablesLE nd dom nodes L) {ev : List (V × S)} (hk : (ev.map Prod.fst).Nodup) (hev : GoodEvidence dom nodes ev)
    (hpos : 0 < massOf dom (exactNodes nodes) x₀ (Agrees ev)) (n : ℕ) (rand : ℕ → ℕ → Draw Dbl)
    (hr : ∀ k i, 0 < (rand k i).r.val) :
    (drawSamples nd dom nodes ev n rand = .error .indexError ∧ ∃ k i, safeBound dom nodes x₀ L < (rand k i).r.val) ∨
    ∃ ss, drawSamples nd dom nodes ev n rand = .ok ss ∧ ss.length = n ∧
      ∀ s ∈ ss, ev <+: s ∧ (s.map Prod.fst).Perm (nodes.map Node.var) ∧
        (∀ p ∈ s, p.2 ∈ dom p.1) ∧ 0 < massOf dom (exactNodes nodes) x₀ (Agrees s) := by
  unfold drawSamples
  have hg : FlGood dom nodes x₀ ev := ⟨hk, hev, hpos⟩
  have hc₀ : FlCacheOK (answerBound nodes.length L) dom nodes x₀ [] := by intro q hq; simp at hq
  revert hc₀
  generalize ([] : Cache V S Dbl) = c
  intro hc
  induction n generalizing rand c with
  | zero => exact Or.inr ⟨[], rfl, rfl, by simp⟩
  | succ n ih =>
    rcases drawLoop_double hnd hN hx₀ hL nodes.length (rand 0) (hr 0) hc hg (by omega) with
      ⟨h1, i, h2⟩ | ⟨c', ext, h1, h2, h3, h4⟩
    · refine Or.inl ⟨?_, 0, i, h2⟩
      simp only [drawMany, drawOne, h1]
    · rcases ih (fun k => rand (k + 1)) (fun k => hr (k + 1)) c' h2 with ⟨k1, k, i, k2⟩ | ⟨ss, k1, k2, k3⟩
      · refine Or.inl ⟨?_, k + 1, i, k2⟩
        simp only [drawMany, drawOne, h1, k1]
      · refine Or.inr ⟨(ev ++ ext) :: ss, ?_, by simp [k2], ?_⟩
        · simp only [drawMany, drawOne, h1, k1]
        · intro s hs
          rcases List.mem_cons.1 hs with rfl | hs
          · refine ⟨List.prefix_append _ _, ?_, fun p hp => (h3.states p hp).2, h3.pos⟩
            have hsub : ((ev ++ ext).map Prod.fst).Subperm (nodes.map Node.var) := by
              apply List.subperm_of_subset h3.keys
              intro v hv
              obtain ⟨p, hp, rfl⟩ := List.mem_map.1 hv
              exact (h3.states p hp).1
            exact hsub.perm_of_length_le (by simp at h4 ⊢; omega)
          · exact k3 s hs

end

end Verif.BBN
