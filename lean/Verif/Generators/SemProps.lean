import Verif.Generators.SemRun
import Verif.Generators.GpProps

/-!
# Data generators: values of the right type, structural equations (C55, C56)
-/

namespace Verif.Generators

open Verif.Mapper Verif.Str

section
variable {N : Type} [DecidableEq N] {n : ℕ}
variable {fmt : N → ℕ → N} {ty : N → VarType} {g : SemGraph N} {m : Mapper N} {dist : Distributions}

/-! ### The weights -/

/-- The coefficient for the edge from `u` to `v`, at position `(a, b)` of its block. -/
noncomputable def coeff (D : SemDraws N n) (u v : N) (rows cols a b : ℕ) : Option ℝ → ℝ
  | none => D.weight u v a b
  | some c => if rows = 1 ∧ cols = 1 then c
    else if ∀ a' < rows, ∀ b' < cols, D.mask u v a b ≤ D.mask u v a' b' then c else 0

theorem setBlock_of_not_mem {w : ℕ → ℕ → ℝ} {rows cols : List ℕ} {val : ℕ → ℕ → ℝ} {i j : ℕ} (h : ¬ (i ∈ rows ∧ j ∈ cols)) :
    setBlock w rows cols val i j = w i j := by
  unfold setBlock
  rw [if_neg h]

theorem setBlock_get {w : ℕ → ℕ → ℝ} {rows cols : List ℕ} (hr : rows.Nodup) (hc : cols.Nodup) {val : ℕ → ℕ → ℝ} {a b i j : ℕ}
    (hi : rows[a]? = some i) (hj : cols[b]? = some j) : setBlock w rows cols val i j = val a b := by
  unfold setBlock
  rw [if_pos ⟨List.mem_of_getElem? hi, List.mem_of_getElem? hj⟩]
  obtain ⟨ha, rfl⟩ := List.getElem?_eq_some_iff.1 hi
  obtain ⟨hb, rfl⟩ := List.getElem?_eq_some_iff.1 hj
  rw [hr.idxOf_getElem, hc.idxOf_getElem]

theorem semWeights_ok {idx : N → List ℕ} {nodes : List N} (hdis : ∀ u ∈ nodes, ∀ v ∈ nodes, u ≠ v → ∀ i ∈ idx u, i ∉ idx v)
    (hnd : ∀ v ∈ nodes, (idx v).Nodup) (hne : ∀ v ∈ nodes, idx v ≠ []) {look : N → Option (List ℕ)}
    (hlook : ∀ v ∈ nodes, look v = some (idx v)) (D : SemDraws N n) (es : List (N × N × Option ℝ))
    (hes : ∀ e ∈ es, e.1 ∈ nodes ∧ e.2.1 ∈ nodes) (hp : (es.map fun e => (e.1, e.2.1)).Nodup)
    (hv : ∀ u v, (u, v, none) ∈ es → dist.weight ∈ ["uniform", "gaussian", "normal"]) (w0 : ℕ → ℕ → ℝ) :
    ∃ w, semWeights D dist look es w0 = .ok w ∧
      (∀ u v wt, (u, v, wt) ∈ es → ∀ a b i j, (idx u)[a]? = some i → (idx v)[b]? = some j →
        w i j = coeff D u v (idx u).length (idx v).length a b wt) ∧
      ∀ i j, (∀ e ∈ es, ¬ (i ∈ idx e.1 ∧ j ∈ idx e.2.1)) → w i j = w0 i j := by
  induction es generalizing w0 with
  | nil => exact ⟨w0, rfl, fun u v wt h => absurd h (by simp), fun i j _ => rfl⟩
  | cons e es ih =>
    obtain ⟨u, v, wt⟩ := e
    obtain ⟨hu, hv'⟩ := hes _ List.mem_cons_self
    rw [List.map_cons, List.nodup_cons] at hp
    have ih := ih (fun e he => hes e (List.mem_cons_of_mem _ he)) hp.2 fun a b h => hv a b (List.mem_cons_of_mem _ h)
    -- the block of this edge is not that of another
    have hother : ∀ i ∈ idx u, ∀ j ∈ idx v, ∀ e ∈ es, ¬ (i ∈ idx e.1 ∧ j ∈ idx e.2.1) := by
      rintro i hi j hj e he ⟨hi', hj'⟩
      obtain ⟨h1, h2⟩ := hes e (List.mem_cons_of_mem _ he)
      have e1 : e.1 = u := by
        by_contra hc
        exact hdis e.1 h1 u hu hc i hi' hi
      have e2 : e.2.1 = v := by
        by_contra hc
        exact hdis e.2.1 h2 v hv' hc j hj' hj
      exact hp.1 (List.mem_map.2 ⟨e, he, by rw [e1, e2]⟩)
    have key : ∀ val : ℕ → ℕ → ℝ, semWeights D dist look ((u, v, wt) :: es) w0 = semWeights D dist look es (setBlock w0 (idx u) (idx v) val) →
        (∀ a < (idx u).length, ∀ b < (idx v).length, val a b = coeff D u v (idx u).length (idx v).length a b wt) →
        ∃ w, semWeights D dist look ((u, v, wt) :: es) w0 = .ok w ∧
          (∀ u' v' wt', (u', v', wt') ∈ (u, v, wt) :: es → ∀ a b i j, (idx u')[a]? = some i → (idx v')[b]? = some j →
            w i j = coeff D u' v' (idx u').length (idx v').length a b wt') ∧
          ∀ i j, (∀ e ∈ (u, v, wt) :: es, ¬ (i ∈ idx e.1 ∧ j ∈ idx e.2.1)) → w i j = w0 i j := by
      intro val heq hval
      obtain ⟨w, hw, h1, h2⟩ := ih (setBlock w0 (idx u) (idx v) val)
      refine ⟨w, heq.trans hw, ?_, ?_⟩
      · intro u' v' wt' he a b i j hi hj
        rcases List.mem_cons.1 he with he | he
        · obtain ⟨rfl, rfl, rfl⟩ : u' = u ∧ v' = v ∧ wt' = wt := by simpa using he
          rw [h2 i j (hother i (List.mem_of_getElem? hi) j (List.mem_of_getElem? hj)), setBlock_get (hnd _ hu) (hnd _ hv') hi hj]
          exact hval a (List.getElem?_eq_some_iff.1 hi).1 b (List.getElem?_eq_some_iff.1 hj).1
        · exact h1 u' v' wt' he a b i j hi hj
      · intro i j h
        rw [h2 i j fun e he => h e (List.mem_cons_of_mem _ he), setBlock_of_not_mem (h _ List.mem_cons_self)]
    have hl1 : 0 < (idx u).length := List.length_pos_iff.2 (hne u hu)
    have hl2 : 0 < (idx v).length := List.length_pos_iff.2 (hne v hv')
    cases wt with
    | none =>
      refine key (D.weight u v) ?_ fun a _ b _ => rfl
      rw [semWeights]
      simp only [hlook u hu, hlook v hv']
      rw [if_pos (hv u v List.mem_cons_self)]
    | some c =>
      by_cases h1 : (idx u).length * (idx v).length = 1
      · refine key (fun _ _ => c) ?_ fun a _ b _ => ?_
        · rw [semWeights]
          simp only [hlook u hu, hlook v hv']
          rw [if_pos h1]
        · rw [coeff, if_pos ⟨Nat.dvd_one.1 (Dvd.intro _ h1), Nat.dvd_one.1 (Dvd.intro_left _ h1)⟩]
      · refine key (sparse (D.mask u v) (idx u).length (idx v).length c) ?_ fun a ha b hb => ?_
        · rw [semWeights]
          simp only [hlook u hu, hlook v hv']
          rw [if_neg h1, if_pos]
          have := Nat.mul_pos hl1 hl2
          omega
        · rw [coeff, if_neg (fun hc => h1 (by rw [hc.1, hc.2])), sparse]
          split <;> simp

theorem semWeights_error {idx : N → List ℕ} {nodes : List N} {look : N → Option (List ℕ)}
    (hlook : ∀ v ∈ nodes, look v = some (idx v)) (D : SemDraws N n) (es : List (N × N × Option ℝ))
    (hes : ∀ e ∈ es, e.1 ∈ nodes ∧ e.2.1 ∈ nodes)
    (hv : ¬ ∀ u v, (u, v, none) ∈ es → dist.weight ∈ ["uniform", "gaussian", "normal"]) (w0 : ℕ → ℕ → ℝ) :
    semWeights D dist look es w0 = .error .valueError := by
  induction es generalizing w0 with
  | nil => exact absurd (by simp) hv
  | cons e es ih =>
    obtain ⟨u, v, wt⟩ := e
    obtain ⟨hu, hv'⟩ := hes _ List.mem_cons_self
    have hes' : ∀ e ∈ es, e.1 ∈ nodes ∧ e.2.1 ∈ nodes := fun e he => hes e (List.mem_cons_of_mem _ he)
    push Not at hv
    obtain ⟨u', v', h, hd⟩ := hv
    rw [semWeights]
    simp only [hlook u hu, hlook v hv']
    cases wt with
    | none =>
      simp only
      rw [if_neg hd]
    | some c =>
      have h' : (u', v', none) ∈ es := by simpa using h
      have ih := ih hes' fun hc => hd (hc u' v' h')
      simp only
      split
      · exact ih _
      · split
        · exact ih _
        · exact ih _

/-! ### From the final array to the frame -/

/-- The column named `f`. -/
def valOf (m : Mapper N) (x : ℕ → Col n) (f : N) : Col n := x (m.featureList.idxOf f)

theorem frameOf (F : MapperFacts fmt g.nodes ty m) (x : ℕ → Col n) :
    FrameOf fmt g.nodes ty (m.featureList.zip ((List.range (nFeatures m)).map x)) (valOf m x) := by
  have hl : m.featureList.length ≤ ((List.range (nFeatures m)).map x).length := by simp [nFeatures]
  refine ⟨by rw [List.map_fst_zip hl]; exact F.nodup, ?_⟩
  intro f c
  rw [← mem_features F]
  constructor
  · intro h
    obtain ⟨i, hi, he⟩ := List.getElem_of_mem h
    rw [List.getElem_zip] at he
    obtain ⟨rfl, rfl⟩ := Prod.mk.inj he
    refine ⟨List.getElem_mem _, ?_⟩
    rw [List.getElem_map, List.getElem_range, valOf, F.nodup.idxOf_getElem]
  · rintro ⟨h, rfl⟩
    have hlt := List.idxOf_lt_length_of_mem h
    rw [List.mem_iff_getElem]
    refine ⟨m.featureList.idxOf f, by simpa [nFeatures] using hlt, ?_⟩
    rw [List.getElem_zip, List.getElem_map, List.getElem_range, List.getElem_idxOf]
    rfl

theorem features_ne_nil {v : N} (h : ∀ k, ty v = .categorical k → k ≠ 0) : (ty v).features fmt v ≠ [] := by
  cases ht : ty v with
  | categorical k => simpa [VarType.features] using h k ht
  | _ => simp [VarType.features]

theorem root_iff (hg : g.WF) (hp : ∀ v ∈ g.nodes, ∀ k, ty v = .categorical k → k ≠ 0) (v : N) :
    (parentsIdx fmt ty g m v).length = 0 ↔ g.preds v = [] := by
  rw [List.length_eq_zero_iff]
  unfold parentsIdx
  rw [List.flatMap_eq_nil_iff]
  constructor
  · intro h
    by_contra hc
    obtain ⟨u, hu⟩ := List.exists_mem_of_ne_nil _ hc
    have := h u hu
    rw [idxOfVar, List.map_eq_nil_iff] at this
    exact features_ne_nil (hp u (hg.ends _ (mem_preds.1 hu)).1) this
  · intro h
    rw [h]
    simp

theorem topo_blocks {order : List N} (ho : IsTopo g.nodes g.pairs order) (ha : Verif.Graph.Acyclic g.pairs) :
    (∀ v, v ∈ order ↔ v ∈ g.nodes) ∧ (∀ v ∈ order, v ∉ g.preds v) ∧ order.Pairwise fun a b => b ∉ g.preds a := by
  refine ⟨fun v => ho.perm.mem_iff, fun v _ h => ha v (.single (mem_preds.1 h)), ho.forward.imp fun h hc => h (mem_preds.1 hc)⟩

theorem validFor_of_valid (h : Valid g ty dist) : ∀ v ∈ g.nodes, ValidFor dist (ty v) := by
  intro v hv
  cases ht : ty v with
  | continuous => exact h.continuous v hv ht
  | binary => exact h.binary v hv ht
  | count => exact h.count v hv ht
  | categorical k => exact h.categorical v hv k ht

theorem valid_of_validFor (h : ∀ v ∈ g.nodes, ValidFor dist (ty v)) : Valid g ty dist := by
  refine ⟨?_, ?_, ?_, ?_⟩
  · intro v hv ht; have := h v hv; rwa [ht] at this
  · intro v hv ht; have := h v hv; rwa [ht] at this
  · intro v hv ht; have := h v hv; rwa [ht] at this
  · intro v hv k ht; have := h v hv; rwa [ht] at this

/-- The final array satisfies the equations of all variables. -/
theorem sem_final (hg : g.WF) (F : MapperFacts fmt g.nodes ty m) (hp : ∀ v ∈ g.nodes, ∀ k, ty v = .categorical k → k ≠ 0)
    {D : SemDraws N n} (hD : D.Uniform) (noiseStd : ℝ) {mean : (ℕ → Col n) → N → List ℕ → List ℕ → ℕ → Col n} {x : ℕ → Col n}
    (hx : ∀ v ∈ g.nodes, (idxOfVar fmt ty m v).map x = stepCols fmt ty g D dist noiseStd m mean x v)
    {meanF : N → N → Col n} (hmean : ∀ v ∈ g.nodes, ∀ c f, ((ty v).features fmt v)[c]? = some f →
      mean x v (parentsIdx fmt ty g m v) (idxOfVar fmt ty m v) c = meanF v f) :
    ∀ v ∈ g.nodes, Realises fmt g D noiseStd dist v (meanF v) (valOf m x) (ty v) := by
  intro v hv
  refine realises_of_cols hD (root := decide ((parentsIdx fmt ty g m v).length = 0)) ?_ (hp v hv) (hmean v hv) ?_
  · simp only [root_iff hg hp]
  · have := hx v hv
    rw [idxOfVar, List.map_map] at this
    exact this

/-! ### The linear generator -/

/-- What `weightMatrix` returns. -/
theorem weightMatrix_ok (hg : g.WF) (F : MapperFacts fmt g.nodes ty m) (hp : ∀ v ∈ g.nodes, ∀ k, ty v = .categorical k → k ≠ 0)
    (D : SemDraws N n) {intercept : Bool} (hv : ValidLinear g ty dist intercept) :
    ∃ w, weightMatrix g D dist m intercept = .ok w ∧
      (∀ u v wt, (u, v, wt) ∈ g.edges → ∀ a b f h, ((ty u).features fmt u)[a]? = some f → ((ty v).features fmt v)[b]? = some h →
        w (m.featureList.idxOf f) (m.featureList.idxOf h) =
          coeff D u v ((ty u).features fmt u).length ((ty v).features fmt v).length a b wt) ∧
      (intercept = true → ∀ j, w (nFeatures m) j = D.intercept j) := by
  have B := sem_blocks (dist := dist) (mean := fun _ _ _ _ _ _ => 0) hg F D 1 (K := fun _ => False) (fun _ h => h.elim)
    (fun _ _ _ _ _ _ => rfl)
  have hends : ∀ e ∈ g.edges, e.1 ∈ g.nodes ∧ e.2.1 ∈ g.nodes := fun e he => hg.ends _ (List.mem_map.2 ⟨e, he, rfl⟩)
  obtain ⟨w, hw, h1, -⟩ := semWeights_ok (dist := dist) B.disjoint B.nodup
    (fun v hv => by
      rw [idxOfVar, ne_eq, List.map_eq_nil_iff]
      exact features_ne_nil (hp v hv)) F.dict D g.edges hends hg.edges hv.weight fun _ _ => 0
  have h1' : ∀ u v wt, (u, v, wt) ∈ g.edges → ∀ a b f h, ((ty u).features fmt u)[a]? = some f →
      ((ty v).features fmt v)[b]? = some h → w (m.featureList.idxOf f) (m.featureList.idxOf h) =
          coeff D u v ((ty u).features fmt u).length ((ty v).features fmt v).length a b wt := by
    intro u v wt he a b f h hf hh
    rw [h1 u v wt he a b _ _ (by rw [idxOfVar, List.getElem?_map, hf]; rfl) (by rw [idxOfVar, List.getElem?_map, hh]; rfl),
      idxOfVar_length, idxOfVar_length]
  unfold weightMatrix
  simp only [hw]
  cases intercept with
  | false => exact ⟨w, rfl, h1', fun h => absurd h (by simp)⟩
  | true =>
    simp only [if_true]
    rw [if_pos (hv.intercept rfl)]
    refine ⟨_, rfl, ?_, ?_⟩
    · intro u v wt he a b f h hf hh
      rw [if_neg, h1' u v wt he a b f h hf hh]
      have := List.idxOf_lt_length_of_mem ((mem_features F).2 ⟨u, (hends _ he).1, List.mem_of_getElem? hf⟩)
      rw [F.columns, nFeatures]
      omega
    · intro _ j
      rw [if_pos F.columns.symm]

/-- The mean used by `semGenerator`. -/
noncomputable def linMean (m : Mapper N) (w : ℕ → ℕ → ℝ) (intercept : Bool) (x : ℕ → Col n) (_ : N) (parents jIdx : List ℕ) (c : ℕ) : Col n :=
  linearMean w x (if intercept then parents ++ [nFeatures m] else parents) (jIdx.getD c 0)

theorem linMean_dep (w : ℕ → ℕ → ℝ) (intercept : Bool) :
    MeanDep (n := n) fmt ty g m (fun i => intercept = true ∧ i = nFeatures m) (linMean m w intercept) := by
  intro v _ x y h1 h2
  funext c r
  unfold linMean linearMean
  congr 1
  refine List.map_congr_left fun i hi => ?_
  suffices x i = y i by rw [this]
  cases intercept with
  | false => exact h1 i hi
  | true =>
    simp only [if_true, List.mem_append, List.mem_singleton] at hi
    rcases hi with hi | rfl
    · exact h1 i hi
    · exact h2 _ ⟨rfl, rfl⟩

/-- What `semGenerator` does if the settings are valid. -/
theorem semGenerator_run (hg : g.WF) (F : MapperFacts fmt g.nodes ty m) {types : List Str} {schema : Option (List (N × Str))}
    {defaultType : Str} (hm : initSem fmt types g schema defaultType = .ok m) {order : List N} (ho : ∀ v ∈ order, v ∈ g.nodes)
    {D : SemDraws N n} {noiseStd : ℝ} {intercept : Bool} (hv : Valid g ty dist) {w : ℕ → ℕ → ℝ}
    (hw : weightMatrix g D dist m intercept = .ok w) (empty : ℕ → Col n) :
    semGenerator fmt types order empty D g schema defaultType noiseStd dist intercept =
      .ok (m.featureList.zip ((List.range (nFeatures m)).map
        (blockAll (idxOfVar fmt ty m) (stepCols fmt ty g D dist noiseStd m (linMean m w intercept)) order
          (if intercept then Function.update empty (nFeatures m) fun _ => 1 else empty)))) := by
  unfold semGenerator
  simp only [hm, hw]
  rw [show (fun (x : ℕ → Col n) (_ : N) (parents jIdx : List ℕ) (c : ℕ) =>
      linearMean w x (if intercept = true then parents ++ [nFeatures m] else parents) (jIdx.getD c 0)) = linMean m w intercept from rfl]
  rw [semLoop_ok hg F D noiseStd _ ho (fun v hv' => validFor_of_valid hv v (ho v hv'))]

theorem linMean_structural (F : MapperFacts fmt g.nodes ty m) (w : ℕ → ℕ → ℝ) (intercept : Bool) {x : ℕ → Col n}
    (hx : intercept = true → ∀ r, x (nFeatures m) r = 1) {v : N} {c : ℕ} {f : N}
    (hf : ((ty v).features fmt v)[c]? = some f) :
    linMean m w intercept x v (parentsIdx fmt ty g m v) (idxOfVar fmt ty m v) c =
      structuralMean fmt g ty (fun f h => w (m.featureList.idxOf f) (m.featureList.idxOf h))
        (fun h => if intercept then w (nFeatures m) (m.featureList.idxOf h) else 0) (valOf m x) v f := by
  have hj : (idxOfVar fmt ty m v).getD c 0 = m.featureList.idxOf f := by
    rw [List.getD_eq_getElem?_getD, idxOfVar, List.getElem?_map, hf]
    rfl
  have hpar : parentsIdx fmt ty g m v = ((g.preds v).flatMap fun u => (ty u).features fmt u).map m.featureList.idxOf := by
    unfold parentsIdx idxOfVar
    rw [List.map_flatMap]
  funext r
  unfold linMean linearMean structuralMean
  rw [hj, hpar]
  cases intercept with
  | false =>
    simp only [Bool.false_eq_true, if_false, List.map_map, add_zero]
    rfl
  | true =>
    simp only [if_true, List.map_append, List.sum_append, List.map_map, List.map_cons, List.map_nil, List.sum_cons, List.sum_nil,
      hx rfl r, one_mul, add_zero]
    rfl

/-- **C56** (and C55 with `Realises.inType`). For every graph without cycles, every schema of documented types without a clash of names,
every order in which the nodes can be visited, all random numbers and any content of the new array: the generator
returns the features of all variables as columns, and every variable is realised, according to its type, from the linear
function of the (final) values of its parents, with the coefficients of the edges. -/
theorem semGenerator_correct (hg : g.WF) (ha : Verif.Graph.Acyclic g.pairs) (hd : Distinct fmt (schOf g.nodes ty))
    {schema : Option (List (N × Str))} {defaultType : Str} (hs : Documented g.nodes schema defaultType ty) {types : List Str}
    (ht : types.Perm permissible) {order : List N} (ho : IsTopo g.nodes g.pairs order) {D : SemDraws N n} (hD : D.Uniform)
    {intercept : Bool} (hv : ValidLinear g ty dist intercept) (noiseStd : ℝ) (empty : ℕ → Col n) :
    ∃ F, semGenerator fmt types order empty D g schema defaultType noiseStd dist intercept = .ok F ∧
      ∃ (val : N → Col n) (W : N → N → ℝ) (b : N → ℝ), FrameOf fmt g.nodes ty F val ∧
        Coefficients fmt g D ty W ∧ (∀ h, b h = if intercept then D.intercept ((F.map (·.1)).idxOf h) else 0) ∧
        ∀ v ∈ g.nodes, Realises fmt g D noiseStd dist v (structuralMean fmt g ty W b val v) val (ty v) := by
  obtain ⟨m, hm, F⟩ := initSem_ok hg hd ha hs ht
  have hp : ∀ v ∈ g.nodes, ∀ k, ty v = .categorical k → k ≠ 0 := fun v hv => (hs.given v hv).2
  obtain ⟨w, hw, h1, h2⟩ := weightMatrix_ok hg F hp D hv
  obtain ⟨o1, o2, o3⟩ := topo_blocks ho ha
  have hrun := semGenerator_run hg F hm (fun v hv => (o1 v).1 hv) (noiseStd := noiseStd) hv.toValid hw empty
  have B := sem_blocks (dist := dist) hg F D noiseStd (K := fun i => intercept = true ∧ i = nFeatures m)
    (fun i hi => hi.2.ge) (linMean_dep w intercept)
  have hone : intercept = true → ∀ r, (blockAll (idxOfVar fmt ty m) (stepCols fmt ty g D dist noiseStd m (linMean m w intercept)) order
      (if intercept then Function.update empty (nFeatures m) fun _ => 1 else empty)) (nFeatures m) r = 1 := by
    intro hi r
    rw [blockAll_of_not_mem fun v hv => B.const _ ⟨hi, rfl⟩ v ((o1 v).1 hv), hi]
    simp
  refine ⟨_, hrun, valOf m _, fun f h => w (m.featureList.idxOf f) (m.featureList.idxOf h),
    fun h => if intercept then w (nFeatures m) (m.featureList.idxOf h) else 0, frameOf F _, ?_, ?_, ?_⟩
  · intro u v wt he a b f h hf hh
    refine (h1 u v wt he a b f h hf hh).trans ?_
    cases wt <;> rfl
  · intro h
    rw [List.map_fst_zip (by simp [nFeatures])]
    cases intercept with
    | false => rfl
    | true => simp only [if_true]; exact h2 rfl _
  · refine sem_final hg F hp hD noiseStd (mean := linMean m w intercept) ?_ ?_
    · intro v hv'
      exact blockAll_fixed B (fun v hv => (o1 v).1 hv) ho.nodup o2 o3 _ ((o1 v).2 hv')
    · intro v hv' c f hf
      rw [linMean_structural F w intercept hone hf]

/-- The generator raises `ValueError` for a graph with a cycle, and for settings that are not valid. -/
theorem semGenerator_error (hg : g.WF) (hd : Distinct fmt (schOf g.nodes ty))
    {schema : Option (List (N × Str))} {defaultType : Str} (hs : Documented g.nodes schema defaultType ty) {types : List Str}
    (ht : types.Perm permissible) {order : List N} (ho : Verif.Graph.Acyclic g.pairs → IsTopo g.nodes g.pairs order) (D : SemDraws N n)
    {intercept : Bool} (hv : ¬ (Verif.Graph.Acyclic g.pairs ∧ ValidLinear g ty dist intercept)) (noiseStd : ℝ) (empty : ℕ → Col n) :
    semGenerator fmt types order empty D g schema defaultType noiseStd dist intercept = .error .valueError := by
  by_cases ha : Verif.Graph.Acyclic g.pairs
  · obtain ⟨m, hm, F⟩ := initSem_ok hg hd ha hs ht
    have hends : ∀ e ∈ g.edges, e.1 ∈ g.nodes ∧ e.2.1 ∈ g.nodes := fun e he => hg.ends _ (List.mem_map.2 ⟨e, he, rfl⟩)
    by_cases hw : ∀ u v, (u, v, none) ∈ g.edges → dist.weight ∈ ["uniform", "gaussian", "normal"]
    · by_cases hi : intercept = true → dist.intercept ∈ ["uniform", "gaussian", "normal"]
      · have hval : ¬ ∀ v ∈ order, ValidFor dist (ty v) := by
          intro h
          refine hv ⟨ha, ⟨valid_of_validFor fun v hv => h v ((ho ha).perm.mem_iff.2 hv), hw, hi⟩⟩
        unfold semGenerator
        simp only [hm]
        cases hwm : weightMatrix g D dist m intercept with
        | error e =>
          unfold weightMatrix at hwm
          dsimp only at hwm
          have B := sem_blocks (dist := dist) (mean := fun _ _ _ _ _ _ => 0) hg F D 1 (K := fun _ => False) (fun _ h => h.elim)
            (fun _ _ _ _ _ _ => rfl)
          obtain ⟨w, hw', -⟩ := semWeights_ok (dist := dist) B.disjoint B.nodup
            (fun v hv => by
              rw [idxOfVar, ne_eq, List.map_eq_nil_iff]
              exact features_ne_nil (hs.given v hv).2) F.dict D g.edges hends hg.edges hw fun _ _ => 0
          rw [hw'] at hwm
          simp only at hwm
          split at hwm
          · rename_i hint
            rw [if_pos (hi hint)] at hwm
            cases hwm
          · cases hwm
        | ok w =>
          simp only
          rw [semLoop_error hg F D noiseStd _ (fun v hv => (ho ha).perm.mem_iff.1 hv) hval]
      · have hint : intercept = true := by
          by_contra hc
          exact hi fun h => absurd h hc
        have hni : dist.intercept ∉ ["uniform", "gaussian", "normal"] := fun h => hi fun _ => h
        have B := sem_blocks (dist := dist) (mean := fun _ _ _ _ _ _ => 0) hg F D 1 (K := fun _ => False) (fun _ h => h.elim)
          (fun _ _ _ _ _ _ => rfl)
        obtain ⟨w, hw', -⟩ := semWeights_ok (dist := dist) B.disjoint B.nodup
          (fun v hv => by
            rw [idxOfVar, ne_eq, List.map_eq_nil_iff]
            exact features_ne_nil (hs.given v hv).2) F.dict D g.edges hends hg.edges hw fun _ _ => 0
        unfold semGenerator weightMatrix
        simp only [hm, hw']
        rw [if_pos hint, if_neg hni]
    · unfold semGenerator weightMatrix
      simp only [hm, semWeights_error (dist := dist) F.dict D g.edges hends hw fun _ _ => 0]
  · unfold semGenerator initSem
    rw [if_pos ha]

/-- **C55.** In the data of the linear generator binary columns hold 0 or 1, the columns of a categorical variable hold a
single 1 in every row, and counts are natural numbers. -/
theorem semGenerator_inType (hg : g.WF) (hd : Distinct fmt (schOf g.nodes ty))
    {schema : Option (List (N × Str))} {defaultType : Str} (hs : Documented g.nodes schema defaultType ty) {types : List Str}
    (ht : types.Perm permissible) {order : List N} (ho : Verif.Graph.Acyclic g.pairs → IsTopo g.nodes g.pairs order)
    {D : SemDraws N n} (hD : D.Uniform)
    {intercept : Bool} {noiseStd : ℝ} {empty : ℕ → Col n} {F : SemFrame N n}
    (h : semGenerator fmt types order empty D g schema defaultType noiseStd dist intercept = .ok F) :
    ∃ val : N → Col n, FrameOf fmt g.nodes ty F val ∧ ∀ v ∈ g.nodes, InType fmt v val (ty v) := by
  by_cases hv : Verif.Graph.Acyclic g.pairs ∧ ValidLinear g ty dist intercept
  · obtain ⟨F', hF, val, W, b, h1, -, -, h2⟩ := semGenerator_correct hg hv.1 hd hs ht (ho hv.1) hD hv.2 noiseStd empty
    rw [h] at hF
    obtain rfl := Except.ok.inj hF
    exact ⟨val, h1, fun v hv => (h2 v hv).inType⟩
  · rw [semGenerator_error hg hd hs ht ho D hv] at h
    cases h

/-- The content of the new array and the order in which the nodes are visited have no influence. -/
theorem semGenerator_deterministic (hg : g.WF) (ha : Verif.Graph.Acyclic g.pairs) (hd : Distinct fmt (schOf g.nodes ty))
    {schema : Option (List (N × Str))} {defaultType : Str} (hs : Documented g.nodes schema defaultType ty) {types : List Str}
    (ht : types.Perm permissible) {order order' : List N} (ho : IsTopo g.nodes g.pairs order) (ho' : IsTopo g.nodes g.pairs order')
    (D : SemDraws N n) (intercept : Bool) (noiseStd : ℝ) (empty empty' : ℕ → Col n) :
    semGenerator fmt types order empty D g schema defaultType noiseStd dist intercept =
      semGenerator fmt types order' empty' D g schema defaultType noiseStd dist intercept := by
  by_cases hv : ValidLinear g ty dist intercept
  · obtain ⟨m, hm, F⟩ := initSem_ok hg hd ha hs ht
    have hp : ∀ v ∈ g.nodes, ∀ k, ty v = .categorical k → k ≠ 0 := fun v hv => (hs.given v hv).2
    obtain ⟨w, hw, -⟩ := weightMatrix_ok hg F hp D hv
    obtain ⟨o1, o2, o3⟩ := topo_blocks ho ha
    obtain ⟨o1', o2', o3'⟩ := topo_blocks ho' ha
    rw [semGenerator_run hg F hm (fun v hv => (o1 v).1 hv) hv.toValid hw,
      semGenerator_run hg F hm (fun v hv => (o1' v).1 hv) hv.toValid hw]
    have B := sem_blocks (dist := dist) hg F D noiseStd (K := fun i => intercept = true ∧ i = nFeatures m)
      (fun i hi => hi.2.ge) (linMean_dep w intercept)
    have hu := blocks_unique B o1 o2 o3
      (fun v hv' => blockAll_fixed B (fun v hv => (o1 v).1 hv) ho.nodup o2 o3
        (if intercept then Function.update empty (nFeatures m) fun _ => 1 else empty) ((o1 v).2 hv'))
      (fun v hv' => blockAll_fixed B (fun v hv => (o1' v).1 hv) ho'.nodup o2' o3'
        (if intercept then Function.update empty' (nFeatures m) fun _ => 1 else empty') ((o1' v).2 hv'))
      (by
        rintro i ⟨hi, rfl⟩
        rw [blockAll_of_not_mem fun v hv => B.const _ ⟨hi, rfl⟩ v ((o1 v).1 hv),
          blockAll_of_not_mem fun v hv => B.const _ ⟨hi, rfl⟩ v ((o1' v).1 hv), hi]
        simp)
    congr 2
    refine List.map_congr_left fun i hi => ?_
    have hi' : i < m.featureList.length := List.mem_range.1 hi
    obtain ⟨v, hv', hf⟩ := (mem_features F).1 (List.getElem_mem hi')
    exact hu v hv' i (mem_idxOfVar.2 ⟨_, hf, F.nodup.idxOf_getElem i hi'⟩)
  · have hv' : ¬ (Verif.Graph.Acyclic g.pairs ∧ ValidLinear g ty dist intercept) := fun h => hv h.2
    rw [semGenerator_error hg hd hs ht (fun _ => ho) D hv', semGenerator_error hg hd hs ht (fun _ => ho') D hv']

/-! ### The nonlinear generator -/

theorem gpMean_dep {C : Type} (S : N → ℕ → GpSampler C) (argsort : Argsort) :
    MeanDep (n := n) fmt ty g m (fun _ => False) fun x v parents _ c => gpMean (S v c) argsort x parents := by
  intro v _ x y h1 _
  funext c r
  unfold gpMean
  have h : (fun r => List.map (fun i => x i r) (parentsIdx fmt ty g m v)) = fun r => List.map (fun i => y i r) (parentsIdx fmt ty g m v) :=
    funext fun r => List.map_congr_left fun i hi => by rw [h1 i hi]
  simp only [h]

/-- The rows of the values of the features of the parents of `v`. -/
def parentRows (fmt : N → ℕ → N) (g : SemGraph N) (ty : N → VarType) (val : N → Col n) (v : N) : List (List ℝ) :=
  List.ofFn fun r => ((g.preds v).flatMap fun u => (ty u).features fmt u).map fun f => val f r

/-- **C56** for the nonlinear generator: every variable is realised, according to its type, from a sample of the Gaussian
process at the (final) values of its parents. -/
theorem nonlinearSemGenerator_correct {C : Type} (hg : g.WF) (ha : Verif.Graph.Acyclic g.pairs) (hd : Distinct fmt (schOf g.nodes ty))
    {schema : Option (List (N × Str))} {defaultType : Str} (hs : Documented g.nodes schema defaultType ty) {types : List Str}
    (ht : types.Perm permissible) {order : List N} (ho : IsTopo g.nodes g.pairs order) {D : SemDraws N n} (hD : D.Uniform)
    (S : N → ℕ → GpSampler C) (argsort : Argsort) (hv : Valid g ty dist) (noiseStd : ℝ) (empty : ℕ → Col n) :
    ∃ F, nonlinearSemGenerator fmt types order empty D S argsort g schema defaultType noiseStd dist = .ok F ∧
      ∃ val : N → Col n, FrameOf fmt g.nodes ty F val ∧
        ∀ v ∈ g.nodes, Realises fmt g D noiseStd dist v (fun f r => (gpIndex (S v (((ty v).features fmt v).idxOf f)) argsort 100
          ((g.preds v).flatMap fun u => (ty u).features fmt u).length (parentRows fmt g ty val v)).getD r 0) val (ty v) := by
  obtain ⟨m, hm, F⟩ := initSem_ok hg hd ha hs ht
  have hp : ∀ v ∈ g.nodes, ∀ k, ty v = .categorical k → k ≠ 0 := fun v hv => (hs.given v hv).2
  obtain ⟨o1, o2, o3⟩ := topo_blocks ho ha
  have B := sem_blocks (dist := dist) hg F D noiseStd (K := fun _ => False) (fun i hi => hi.elim) (gpMean_dep S argsort)
  refine ⟨_, ?_, valOf m (blockAll (idxOfVar fmt ty m) (stepCols fmt ty g D dist noiseStd m
    fun x v parents _ c => gpMean (S v c) argsort x parents) order empty), frameOf F _, ?_⟩
  · unfold nonlinearSemGenerator
    simp only [hm]
    rw [semLoop_ok hg F D noiseStd _ (fun v hv => (o1 v).1 hv) (fun v hv' => validFor_of_valid hv v ((o1 v).1 hv'))]
  · refine sem_final hg F hp hD noiseStd (mean := fun x v parents _ c => gpMean (S v c) argsort x parents) ?_ ?_
    · intro v hv'
      exact blockAll_fixed B (fun v hv => (o1 v).1 hv) ho.nodup o2 o3 _ ((o1 v).2 hv')
    · intro v hv' c f hf
      have hpar : parentsIdx fmt ty g m v = ((g.preds v).flatMap fun u => (ty u).features fmt u).map m.featureList.idxOf := by
        unfold parentsIdx idxOfVar
        rw [List.map_flatMap]
      have hnd : ((ty v).features fmt v).Nodup := by
        have := F.features.nodup_iff.2 F.nodup
        rw [List.nodup_flatMap] at this
        exact this.1 v hv'
      have hc : ((ty v).features fmt v).idxOf f = c := by
        obtain ⟨h, rfl⟩ := List.getElem?_eq_some_iff.1 hf
        exact hnd.idxOf_getElem c h
      funext r
      rw [hc]
      unfold gpMean parentRows
      rw [hpar, List.length_map]
      simp only [List.map_map]
      rfl

/-- The nonlinear generator raises `ValueError` for a graph with a cycle, and for settings that are not valid. -/
theorem nonlinearSemGenerator_error {C : Type} (hg : g.WF) (hd : Distinct fmt (schOf g.nodes ty))
    {schema : Option (List (N × Str))} {defaultType : Str} (hs : Documented g.nodes schema defaultType ty) {types : List Str}
    (ht : types.Perm permissible) {order : List N} (ho : Verif.Graph.Acyclic g.pairs → IsTopo g.nodes g.pairs order) (D : SemDraws N n)
    (S : N → ℕ → GpSampler C) (argsort : Argsort) (hv : ¬ (Verif.Graph.Acyclic g.pairs ∧ Valid g ty dist)) (noiseStd : ℝ)
    (empty : ℕ → Col n) :
    nonlinearSemGenerator fmt types order empty D S argsort g schema defaultType noiseStd dist = .error .valueError := by
  by_cases ha : Verif.Graph.Acyclic g.pairs
  · obtain ⟨m, hm, F⟩ := initSem_ok hg hd ha hs ht
    unfold nonlinearSemGenerator
    simp only [hm]
    rw [semLoop_error hg F D noiseStd _ (fun v hv => (ho ha).perm.mem_iff.1 hv) fun h =>
      hv ⟨ha, valid_of_validFor fun v hv => h v ((ho ha).perm.mem_iff.2 hv)⟩]
  · unfold nonlinearSemGenerator initSem
    rw [if_pos ha]

/-- **C55** for the nonlinear generator. -/
theorem nonlinearSemGenerator_inType {C : Type} (hg : g.WF) (hd : Distinct fmt (schOf g.nodes ty))
    {schema : Option (List (N × Str))} {defaultType : Str} (hs : Documented g.nodes schema defaultType ty) {types : List Str}
    (ht : types.Perm permissible) {order : List N} (ho : Verif.Graph.Acyclic g.pairs → IsTopo g.nodes g.pairs order)
    {D : SemDraws N n} (hD : D.Uniform) {S : N → ℕ → GpSampler C} {argsort : Argsort} {noiseStd : ℝ} {empty : ℕ → Col n}
    {F : SemFrame N n}
    (h : nonlinearSemGenerator fmt types order empty D S argsort g schema defaultType noiseStd dist = .ok F) :
    ∃ val : N → Col n, FrameOf fmt g.nodes ty F val ∧ ∀ v ∈ g.nodes, InType fmt v val (ty v) := by
  by_cases hv : Verif.Graph.Acyclic g.pairs ∧ Valid g ty dist
  · obtain ⟨F', hF, val, h1, h2⟩ := nonlinearSemGenerator_correct hg hv.1 hd hs ht (ho hv.1) hD S argsort hv.2 noiseStd empty
    rw [h] at hF
    obtain rfl := Except.ok.inj hF
    exact ⟨val, h1, fun v hv => (h2 v hv).inType⟩
  · rw [nonlinearSemGenerator_error hg hd hs ht ho D S argsort hv] at h
    cases h

/-- **C77** for the nonlinear generator: the content of the new array and the order in which the nodes are visited have no
influence. -/
theorem nonlinearSemGenerator_deterministic {C : Type} (hg : g.WF) (ha : Verif.Graph.Acyclic g.pairs)
    (hd : Distinct fmt (schOf g.nodes ty)) {schema : Option (List (N × Str))} {defaultType : Str}
    (hs : Documented g.nodes schema defaultType ty) {types : List Str} (ht : types.Perm permissible) {order order' : List N}
    (ho : IsTopo g.nodes g.pairs order) (ho' : IsTopo g.nodes g.pairs order') (D : SemDraws N n) (S : N → ℕ → GpSampler C)
    (argsort : Argsort) (noiseStd : ℝ) (empty empty' : ℕ → Col n) :
    nonlinearSemGenerator fmt types order empty D S argsort g schema defaultType noiseStd dist =
      nonlinearSemGenerator fmt types order' empty' D S argsort g schema defaultType noiseStd dist := by
  by_cases hv : Valid g ty dist
  · obtain ⟨m, hm, F⟩ := initSem_ok hg hd ha hs ht
    obtain ⟨o1, o2, o3⟩ := topo_blocks ho ha
    obtain ⟨o1', o2', o3'⟩ := topo_blocks ho' ha
    have B := sem_blocks (dist := dist) hg F D noiseStd (K := fun _ => False) (fun i hi => hi.elim) (gpMean_dep S argsort)
    unfold nonlinearSemGenerator
    simp only [hm]
    rw [semLoop_ok hg F D noiseStd _ (fun v hv => (o1 v).1 hv) (fun v hv' => validFor_of_valid hv v ((o1 v).1 hv')),
      semLoop_ok hg F D noiseStd _ (fun v hv => (o1' v).1 hv) (fun v hv' => validFor_of_valid hv v ((o1' v).1 hv'))]
    have hu := blocks_unique B o1 o2 o3
      (fun v hv' => blockAll_fixed B (fun v hv => (o1 v).1 hv) ho.nodup o2 o3 empty ((o1 v).2 hv'))
      (fun v hv' => blockAll_fixed B (fun v hv => (o1' v).1 hv) ho'.nodup o2' o3' empty' ((o1' v).2 hv'))
      (fun i hi => hi.elim)
    dsimp only
    congr 2
    refine List.map_congr_left fun i hi => ?_
    have hi' : i < m.featureList.length := List.mem_range.1 hi
    obtain ⟨v, hv', hf⟩ := (mem_features F).1 (List.getElem_mem hi')
    exact hu v hv' i (mem_idxOfVar.2 ⟨_, hf, F.nodup.idxOf_getElem i hi'⟩)
  · have hv' : ¬ (Verif.Graph.Acyclic g.pairs ∧ Valid g ty dist) := fun h => hv h.2
    rw [nonlinearSemGenerator_error hg hd hs ht (fun _ => ho) D S argsort hv',
      nonlinearSemGenerator_error hg hd hs ht (fun _ => ho') D S argsort hv']

/-- If the Gaussian process drawn for the continuous variable `v` is the function `f`, then `v` is this function of its
parents, divided by its standard deviation, plus noise. -/
theorem nonlinearSemGenerator_function {C : Type} (hg : g.WF) (ha : Verif.Graph.Acyclic g.pairs) (hd : Distinct fmt (schOf g.nodes ty))
    {schema : Option (List (N × Str))} {defaultType : Str} (hs : Documented g.nodes schema defaultType ty) {types : List Str}
    (ht : types.Perm permissible) {order : List N} (ho : IsTopo g.nodes g.pairs order) {D : SemDraws N n} (hD : D.Uniform)
    {S : N → ℕ → GpSampler C} {argsort : Argsort} (hA : argsort.Sorts) (hv : Valid g ty dist) (noiseStd : ℝ) (empty : ℕ → Col n) :
    ∃ F, nonlinearSemGenerator fmt types order empty D S argsort g schema defaultType noiseStd dist = .ok F ∧
      ∃ val : N → Col n, FrameOf fmt g.nodes ty F val ∧
        ∀ v ∈ g.nodes, ty v = .continuous → g.preds v ≠ [] → ∀ f : List ℝ → ℝ, (S v 0).Draws f → ∀ r,
          val v r = f (((g.preds v).flatMap fun u => (ty u).features fmt u).map fun f => val f r) /
            stdDev ((parentRows fmt g ty val v).map f) + noiseOf g D noiseStd dist.continuous v 0 r := by
  obtain ⟨F, hF, val, h1, h2⟩ := nonlinearSemGenerator_correct hg ha hd hs ht ho hD S argsort hv noiseStd empty
  refine ⟨F, hF, val, h1, fun v hv' htv hpar f hf r => ?_⟩
  have h3 := h2 v hv'
  rw [htv] at h3
  rw [h3 r]
  have hidx : ((VarType.continuous).features fmt v).idxOf v = 0 := List.idxOf_cons_self
  dsimp only
  rw [hidx]
  have hne : ((g.preds v).flatMap fun u => (ty u).features fmt u).length ≠ 0 := by
    rw [ne_eq, List.length_eq_zero_iff, List.flatMap_eq_nil_iff]
    intro hc
    obtain ⟨u, hu⟩ := List.exists_mem_of_ne_nil _ hpar
    exact features_ne_nil (hs.given u (hg.ends _ (mem_preds.1 hu)).1).2 (hc u hu)
  rw [gpIndex_function hf hA (by norm_num) hne]
  congr 1
  rw [List.getD_eq_getElem?_getD, List.getElem?_map, parentRows, List.getElem?_ofFn]
  simp

end

end Verif.Generators
