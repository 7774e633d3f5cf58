import Verif.Pytorch.Loss
import Mathlib.Analysis.SpecialFunctions.Sqrt
import Mathlib.Analysis.SpecialFunctions.Log.Deriv
import Mathlib.Analysis.SpecialFunctions.ExpDeriv
import Mathlib.Analysis.Calculus.Deriv.Pi

/-!
# The network, the losses and the score are differentiable

Families of inputs and parameters that depend on a real number `s`.
-/

namespace Verif.Pytorch

/-! ### Lists -/

theorem diff_list_sum {α : Type} (l : List α) {f : α → ℝ → ℝ} (h : ∀ a ∈ l, Differentiable ℝ (f a)) :
    Differentiable ℝ fun s => (l.map fun a => f a s).sum := by
  induction l with
  | nil => simp
  | cons a l ih =>
    simp only [List.map_cons, List.sum_cons]
    exact (h a (by simp)).fun_add (ih fun b hb => h b (by simp [hb]))

/-- A list of fixed length with differentiable entries. -/
structure DL (f : ℝ → List ℝ) : Prop where
  len : ∃ n, ∀ s, (f s).length = n
  entry : ∀ i, Differentiable ℝ fun s => (f s).getD i 0

theorem DL.const (l : List ℝ) : DL fun _ => l := ⟨⟨_, fun _ => rfl⟩, fun _ => differentiable_const _⟩

theorem DL.take {f : ℝ → List ℝ} (h : DL f) (n : ℕ) : DL fun s => (f s).take n := by
  obtain ⟨m, hm⟩ := h.len
  refine ⟨⟨min n m, fun s => by rw [List.length_take, hm]⟩, fun i => ?_⟩
  by_cases hi : i < n
  · have : (fun s => ((f s).take n).getD i 0) = fun s => (f s).getD i 0 := by
      funext s
      rw [List.getD_eq_getElem?_getD, List.getElem?_take_of_lt hi, ← List.getD_eq_getElem?_getD]
    rw [this]
    exact h.entry i
  · have : (fun s => ((f s).take n).getD i 0) = fun _ => 0 := by
      funext s
      rw [List.getD_eq_getElem?_getD, List.getElem?_eq_none (by rw [List.length_take]; omega)]
      rfl
    rw [this]
    exact differentiable_const _

theorem DL.drop {f : ℝ → List ℝ} (h : DL f) (n : ℕ) : DL fun s => (f s).drop n := by
  obtain ⟨m, hm⟩ := h.len
  refine ⟨⟨m - n, fun s => by rw [List.length_drop, hm]⟩, fun i => ?_⟩
  have : (fun s => ((f s).drop n).getD i 0) = fun s => (f s).getD (n + i) 0 := by
    funext s
    rw [List.getD_eq_getElem?_getD, List.getElem?_drop, ← List.getD_eq_getElem?_getD]
  rw [this]
  exact h.entry _

theorem DL.set (w : List ℝ) (k : ℕ) : DL fun s => w.set k s := by
  refine ⟨⟨w.length, fun s => List.length_set⟩, fun i => ?_⟩
  by_cases hk : i = k ∧ k < w.length
  · obtain ⟨rfl, hk⟩ := hk
    have : (fun s => (w.set i s).getD i 0) = fun s => s := by
      funext s
      rw [List.getD_eq_getElem?_getD, List.getElem?_set_self hk]
      rfl
    rw [this]
    exact differentiable_id
  · have : (fun s => (w.set k s).getD i 0) = fun _ => w.getD i 0 := by
      funext s
      by_cases hik : k = i
      · subst hik
        rw [List.set_eq_of_length_le (by omega)]
      · rw [List.getD_eq_getElem?_getD, List.getElem?_set_ne hik, ← List.getD_eq_getElem?_getD]
    rw [this]
    exact differentiable_const _

theorem DL.sum {f : ℝ → List ℝ} (h : DL f) {g : ℝ → ℝ} (hg : Differentiable ℝ g) : Differentiable ℝ fun s => ((f s).map g).sum := by
  obtain ⟨n, hn⟩ := h.len
  have hsum : ∀ l : List ℝ, (l.map g).sum = ∑ k ∈ Finset.range l.length, g (l.getD k 0) := by
    intro l
    induction l with
    | nil => rfl
    | cons x l ih => rw [List.map_cons, List.sum_cons, List.length_cons, Finset.sum_range_succ', ih, add_comm]; rfl
  have : (fun s => ((f s).map g).sum) = fun s => ∑ k ∈ Finset.range n, g ((f s).getD k 0) := by
    funext s
    rw [hsum, hn]
  rw [this]
  exact Differentiable.fun_sum fun k _ => hg.comp (h.entry k)

/-! ### Parameters -/

theorem slices_DL (ns : List ℕ) : ∀ {f : ℝ → List ℝ}, DL f → ∀ i, DL fun s => (slices ns (f s)).getD i [] := by
  induction ns with
  | nil => intro f _ i; simpa [slices] using DL.const []
  | cons n ns ih =>
    intro f h i
    cases i with
    | zero => simpa [slices] using h.take n
    | succ i => simpa [slices] using ih (h.drop n) i

/-- A layer of fixed shape with differentiable weights and bias. -/
structure SmoothLayer (L : ℝ → Layer) : Prop where
  shape : ∃ a b, ∀ s, (L s).inF = a ∧ (L s).outF = b
  weight : DL fun s => (L s).weight
  bias : ∀ k, Differentiable ℝ fun s => biasAt (L s).bias k

/-- A fixed number of such layers. -/
inductive SmoothLayers : (ℝ → List Layer) → Prop
  | nil : SmoothLayers fun _ => []
  | cons {L : ℝ → Layer} {Ls : ℝ → List Layer} : SmoothLayer L → SmoothLayers Ls → SmoothLayers fun s => L s :: Ls s

theorem readLayers_smooth (b : Bool) (ps : List (ℕ × ℕ)) : ∀ {ts : ℝ → List (List ℝ)}, (∀ i, DL fun s => (ts s).getD i []) →
    SmoothLayers fun s => readLayers b ps (ts s) := by
  induction ps with
  | nil => intro ts _; exact .nil
  | cons p ps ih =>
    intro ts h
    have hh : ∀ l : List (List ℝ), l.headD [] = l.getD 0 [] := fun l => by cases l <;> rfl
    have ht : ∀ (l : List (List ℝ)) (i : ℕ), l.tail.getD i [] = l.getD (i + 1) [] := fun l i => by cases l <;> simp
    cases b with
    | true =>
      have e : (fun s => readLayers true (p :: ps) (ts s)) = fun s =>
          ⟨p.1, p.2, (ts s).headD [], some ((ts s).tail.headD [])⟩ :: readLayers true ps (ts s).tail.tail := by
        funext s; rw [readLayers, if_pos rfl]
      rw [e]
      refine .cons ⟨⟨_, _, fun s => ⟨rfl, rfl⟩⟩, ?_, ?_⟩ (ih fun i => ?_)
      · simp only [hh]; exact h 0
      · intro k
        simp only [hh, ht]
        exact (h 1).entry k
      · simp only [ht]; exact h _
    | false =>
      have e : (fun s => readLayers false (p :: ps) (ts s)) = fun s =>
          ⟨p.1, p.2, (ts s).headD [], none⟩ :: readLayers false ps (ts s).tail := by
        funext s; rw [readLayers, if_neg (by simp)]
      rw [e]
      refine .cons ⟨⟨_, _, fun s => ⟨rfl, rfl⟩⟩, ?_, ?_⟩ (ih fun i => ?_)
      · simp only [hh]; exact h 0
      · intro k
        exact differentiable_const _
      · simp only [ht]; exact h _

/-- A network of fixed shape with differentiable parameters. -/
structure SmoothNet (N : ℝ → Net) : Prop where
  weight : DL fun s => (N s).weight
  bias : ∀ k, Differentiable ℝ fun s => biasAt (N s).bias k
  layers : SmoothLayers fun s => (N s).layers

theorem net_smooth (a : Arch) {f : ℝ → List ℝ} (h : DL f) : SmoothNet fun s => a.net (f s) := by
  have hts := slices_DL a.sizes h
  have hh : ∀ l : List (List ℝ), l.headD [] = l.getD 0 [] := fun l => by cases l <;> rfl
  have ht : ∀ (l : List (List ℝ)) (i : ℕ), l.tail.getD i [] = l.getD (i + 1) [] := fun l i => by cases l <;> simp
  unfold Arch.net
  cases a.useBias with
  | true =>
    simp only [if_true]
    refine ⟨?_, ?_, readLayers_smooth true _ fun i => ?_⟩
    · simp only [hh]; exact hts 0
    · intro k; simp only [hh, ht]; exact (hts 1).entry k
    · simp only [ht]; exact hts _
  | false =>
    simp only [Bool.false_eq_true, if_false]
    refine ⟨?_, fun k => differentiable_const _, readLayers_smooth false _ fun i => ?_⟩
    · simp only [hh]; exact hts 0
    · simp only [ht]; exact hts _

/-! ### The network -/

theorem diff_sigmoid : Differentiable ℝ Real.sigmoid := differentiable_sigmoid

theorem layerNorm_smooth (m : ℕ) {eps : ℝ} (he : 0 < eps) {v : ℝ → ℕ → ℝ} (hv : ∀ k, Differentiable ℝ fun s => v s k) (k : ℕ) :
    Differentiable ℝ fun s => layerNorm m eps (v s) k := by
  unfold layerNorm
  have hmean : Differentiable ℝ fun s => (∑ a ∈ Finset.range m, v s a) / m :=
    (Differentiable.fun_sum fun a _ => hv a).div_const _
  have hvar : Differentiable ℝ fun s => (∑ a ∈ Finset.range m, (v s a - (∑ a ∈ Finset.range m, v s a) / m) ^ 2) / m :=
    (Differentiable.fun_sum fun a _ => ((hv a).fun_sub hmean).fun_pow 2).div_const _
  have hpos : ∀ s, 0 < (∑ a ∈ Finset.range m, (v s a - (∑ a ∈ Finset.range m, v s a) / m) ^ 2) / m + eps := by
    intro s
    have : 0 ≤ (∑ a ∈ Finset.range m, (v s a - (∑ a ∈ Finset.range m, v s a) / m) ^ 2) / m :=
      div_nonneg (Finset.sum_nonneg fun _ _ => sq_nonneg _) (Nat.cast_nonneg _)
    linarith
  exact ((hv k).fun_sub hmean).fun_div ((hvar.add_const eps).sqrt fun s => (hpos s).ne') fun s => (Real.sqrt_pos.2 (hpos s)).ne'

theorem applyLayer_smooth {eps : ℝ} (he : 0 < eps) (j : ℕ) {L : ℝ → Layer} (hL : SmoothLayer L) {v : ℝ → ℕ → ℝ}
    (hv : ∀ k, Differentiable ℝ fun s => v s k) (b : ℕ) : Differentiable ℝ fun s => applyLayer eps j (L s) (v s) b := by
  obtain ⟨m, n, hs⟩ := hL.shape
  have : (fun s => applyLayer eps j (L s) (v s) b) = fun s => (∑ a ∈ Finset.range m,
      layerNorm m eps (fun a => Real.sigmoid (v s a)) a * (L s).weight.getD ((j * m + a) * n + b) 0) + biasAt (L s).bias (j * n + b) := by
    funext s
    rw [applyLayer, (hs s).1, (hs s).2]
  rw [this]
  refine Differentiable.fun_add (Differentiable.fun_sum fun a _ => ?_) (hL.bias _)
  exact (layerNorm_smooth m he (fun k => diff_sigmoid.comp (hv k)) a).fun_mul (hL.weight.entry _)

theorem foldl_smooth {eps : ℝ} (he : 0 < eps) (j : ℕ) {Ls : ℝ → List Layer} (hL : SmoothLayers Ls) :
    ∀ {v : ℝ → ℕ → ℝ}, (∀ k, Differentiable ℝ fun s => v s k) →
      ∀ k, Differentiable ℝ fun s => (Ls s).foldl (fun v l => applyLayer eps j l v) (v s) k := by
  induction hL with
  | nil => intro v hv k; exact hv k
  | cons h _ ih =>
    intro v hv k
    exact ih (v := fun s => applyLayer eps j _ (v s)) (fun k => applyLayer_smooth he j h hv k) k

/-- The reconstruction is differentiable in inputs and parameters. -/
theorem forward_smooth (a : Arch) (hc : 0 < a.clamp) {N : ℝ → Net} (hN : SmoothNet N) {x : ℝ → ℕ → ℝ}
    (hx : ∀ i, Differentiable ℝ fun s => x s i) (j : ℕ) : Differentiable ℝ fun s => forward a (N s) (x s) j := by
  unfold forward
  refine foldl_smooth hc j hN.layers (fun h => ?_) 0
  unfold firstLayer
  exact (Differentiable.fun_sum fun i _ => (hx i).fun_mul (hN.weight.entry _)).fun_add (hN.bias _)

/-- Without later layers nothing has to be assumed about the clamp. -/
theorem forward_smooth_linear (a : Arch) {N : ℝ → Net} (hN : SmoothNet N) (hl : ∀ s, (N s).layers = []) {x : ℝ → ℕ → ℝ}
    (hx : ∀ i, Differentiable ℝ fun s => x s i) (j : ℕ) : Differentiable ℝ fun s => forward a (N s) (x s) j := by
  have : (fun s => forward a (N s) (x s) j) = fun s => firstLayer a (N s) (x s) j 0 := by
    funext s; rw [forward, hl]; rfl
  rw [this]
  unfold firstLayer
  exact (Differentiable.fun_sum fun i _ => (hx i).fun_mul (hN.weight.entry _)).fun_add (hN.bias _)

/-! ### Losses -/

theorem steps_smooth (l : List ℝ) : ∀ {A y : ℝ → ℝ}, Differentiable ℝ A → Differentiable ℝ y → ∀ k,
    Differentiable ℝ fun s => (steps (A s) (l.map fun c => Real.sigmoid (c - y s))).getD k 0 := by
  induction l with
  | nil =>
    intro A y hA _ k
    cases k with
    | zero => simpa [steps] using hA.const_sub 1
    | succ k => simp [steps]
  | cons c l ih =>
    intro A y hA hy k
    have hc : Differentiable ℝ fun s => Real.sigmoid (c - y s) := diff_sigmoid.comp (hy.const_sub c)
    cases k with
    | zero => simpa [steps] using hc.fun_sub hA
    | succ k => simpa [steps] using ih hc hy k

/-- The thresholds of an ordinal variable are ordered. -/
def Enc.Ordered : Enc → Prop
  | .ord _ _ counts => (logCumOdds counts).Pairwise (· < ·)
  | _ => True

theorem rowLoss_smooth (e : Enc) (he : e.Ordered) (x : ℕ → ℝ) {y : ℝ → ℕ → ℝ} (hy : ∀ i, Differentiable ℝ fun s => y s i) :
    Differentiable ℝ fun s => e.rowLoss x (y s) := by
  cases e with
  | cont i =>
    simp only [Enc.rowLoss]
    exact (((hy i).sub_const _).fun_pow 2).const_mul _
  | bin i =>
    simp only [Enc.rowLoss]
    have hs : Differentiable ℝ fun s => Real.sigmoid (y s i) := diff_sigmoid.comp (hy i)
    refine (Differentiable.fun_add ?_ ?_).fun_neg
    · exact (hs.log fun s => (Real.sigmoid_pos _).ne').const_mul _
    · exact ((hs.const_sub 1).log fun s => by have := Real.sigmoid_lt_one (y s i); linarith).const_mul _
  | poiss i =>
    simp only [Enc.rowLoss]
    exact (hy i).exp.fun_sub ((hy i).const_mul _)
  | cat i g cats =>
    simp only [Enc.rowLoss]
    refine Differentiable.fun_add ?_ ?_
    · refine Differentiable.fun_neg ?_
      by_cases hk : argmax (g.map x) < g.length
      · have : (fun s => (g.map (y s)).getD (argmax (g.map x)) 0) = fun s => y s (g[argmax (g.map x)]) := by
          funext s
          rw [List.getD_eq_getElem _ _ (by simpa using hk), List.getElem_map]
        rw [this]
        exact hy _
      · have : (fun s => (g.map (y s)).getD (argmax (g.map x)) 0) = fun _ => 0 := by
          funext s
          rw [List.getD_eq_default _ _ (by simpa using hk)]
        rw [this]
        exact differentiable_const _
    · have hsum : Differentiable ℝ fun s => ((g.map (y s)).map Real.exp).sum := by
        simp only [List.map_map, Function.comp_def]
        exact diff_list_sum g fun k _ => (hy k).exp
      by_cases hg : g = []
      · subst hg; simp
      · refine hsum.log fun s => ?_
        refine (List.sum_pos _ ?_ ?_).ne'
        · intro a ha
          obtain ⟨b, -, rfl⟩ := List.mem_map.1 ha
          exact Real.exp_pos b
        · simpa using hg
  | ord i cats counts =>
    simp only [Enc.rowLoss]
    by_cases ho : logCumOdds counts = []
    · rw [ho]; simp [ordProbs]
    · simp only [ordProbs_eq _ _ ho, Option.getD_some]
      refine Differentiable.fun_neg ?_
      by_cases hk : ⌊x i⌋₊ < (logCumOdds counts).length + 1
      · refine (steps_smooth _ (differentiable_const 0) (hy i) _).log fun s => ?_
        have hlen : ⌊x i⌋₊ < (steps 0 ((logCumOdds counts).map fun c => Real.sigmoid (c - y s i))).length := by
          rw [steps_length, List.length_map]; exact hk
        rw [List.getD_eq_getElem _ _ hlen]
        refine (steps_pos _ 0 (by norm_num) ?_ ?_ _ (List.getElem_mem _)).ne'
        · rw [List.pairwise_cons]
          refine ⟨?_, ?_⟩
          · intro b hb
            obtain ⟨c, _, rfl⟩ := List.mem_map.1 hb
            exact Real.sigmoid_pos _
          · rw [List.pairwise_map]
            exact List.Pairwise.imp (fun h => Real.sigmoid_strictMono (by linarith)) he
        · intro b hb
          obtain ⟨c, _, rfl⟩ := List.mem_map.1 hb
          exact Real.sigmoid_lt_one _
      · have : (fun s => Real.log ((steps 0 ((logCumOdds counts).map fun c => Real.sigmoid (c - y s i))).getD ⌊x i⌋₊ 0)) =
            fun _ => Real.log 0 := by
          funext s
          rw [List.getD_eq_default]
          rw [steps_length, List.length_map]
          omega
        rw [this]
        exact differentiable_const _

/-! ### Acyclicity score -/

theorem collapseAll_smooth (es : List Enc) : ∀ {A : ℝ → ℕ → ℕ → ℝ}, (∀ i j, Differentiable ℝ fun s => A s i j) →
    ∀ i j, Differentiable ℝ fun s => collapseAll es (A s) i j := by
  induction es with
  | nil => intro A h i j; exact h i j
  | cons e es ih =>
    intro A h i j
    refine ih (A := fun s => e.collapse (A s)) (fun i j => ?_) i j
    simp only [collapse_eq]
    unfold collapseGroup
    simp only
    have hB : ∀ i j, Differentiable ℝ fun s => if i = e.cols.headD 0 then A s (e.cols.headD 0) j +
        (e.cols.tail.map fun k => A s k j).sum else A s i j := by
      intro i j
      split_ifs
      · exact (h _ _).fun_add (diff_list_sum _ fun k _ => h k j)
      · exact h _ _
    by_cases hj : j = e.cols.headD 0
    · simp only [hj, if_true]
      exact (hB _ _).fun_add (diff_list_sum _ fun k _ => hB i k)
    · simp only [hj, if_false]
      exact hB _ _

theorem polyScore_smooth {V : Type} [Fintype V] [DecidableEq V] {A : ℝ → Matrix V V ℝ} (h : ∀ i j, Differentiable ℝ fun s => A s i j) :
    Differentiable ℝ fun s => Notears.polyScore (A s) := by
  have hM : ∀ i j, Differentiable ℝ fun s => (1 + (Fintype.card V : ℝ)⁻¹ • A s : Matrix V V ℝ) i j := by
    intro i j
    simp only [Matrix.add_apply, Matrix.smul_apply, smul_eq_mul]
    exact ((h i j).const_mul _).const_add _
  have hpow : ∀ (n : ℕ) i j, Differentiable ℝ fun s => ((1 + (Fintype.card V : ℝ)⁻¹ • A s : Matrix V V ℝ) ^ n) i j := by
    intro n
    induction n with
    | zero => intro i j; simp
    | succ n ih =>
      intro i j
      simp only [pow_succ, Matrix.mul_apply]
      exact Differentiable.fun_sum fun k _ => (ih i k).fun_mul (hM k j)
  unfold Notears.polyScore
  simp only [Matrix.hadamard_apply, Matrix.transpose_apply]
  exact (Differentiable.fun_sum fun i _ => Differentiable.fun_sum fun j _ => (hpow _ j i).fun_mul (hM i j)).sub_const _

theorem hFunc_smooth (a : Arch) (es : List Enc) {N : ℝ → Net} (hN : SmoothNet N) : Differentiable ℝ fun s => hFunc a es (N s) := by
  unfold hFunc
  refine polyScore_smooth fun i j => ?_
  refine collapseAll_smooth es (fun i j => ?_) i j
  unfold squareWeights
  exact Differentiable.fun_sum fun h _ => (hN.weight.entry _).fun_mul (hN.weight.entry _)

/-! ### Penalty -/

theorem layers_sq_smooth {Ls : ℝ → List Layer} (h : SmoothLayers Ls) :
    DL fun s => (Ls s).flatMap Layer.weight := by
  have append : ∀ {f g : ℝ → List ℝ}, DL f → DL g → DL fun s => f s ++ g s := by
    intro f g hf hg
    obtain ⟨m, hm⟩ := hf.len
    obtain ⟨n, hn⟩ := hg.len
    refine ⟨⟨m + n, fun s => by rw [List.length_append, hm, hn]⟩, fun i => ?_⟩
    by_cases hi : i < m
    · have : (fun s => (f s ++ g s).getD i 0) = fun s => (f s).getD i 0 := by
        funext s; rw [List.getD_append _ _ _ _ (by rw [hm]; exact hi)]
      rw [this]; exact hf.entry i
    · have : (fun s => (f s ++ g s).getD i 0) = fun s => (g s).getD (i - m) 0 := by
        funext s; rw [List.getD_append_right _ _ _ _ (by rw [hm]; omega), hm]
      rw [this]; exact hg.entry _
  induction h with
  | nil => exact DL.const []
  | cons h _ ih => simpa [List.flatMap_cons] using append h.weight ih

theorem l2Reg_smooth (a : Arch) {N : ℝ → Net} (hN : SmoothNet N) : Differentiable ℝ fun s => l2Reg a (N s) := by
  have hl := layers_sq_smooth hN.layers
  obtain ⟨m, hm⟩ := hN.weight.len
  obtain ⟨n, hn⟩ := hl.len
  have : (fun s => l2Reg a (N s)) = fun s => (((N s).weight.map fun x => x ^ 2).sum +
      (((N s).layers.flatMap Layer.weight).map fun x => x ^ 2).sum) / ((m + n : ℕ) : ℝ) * a.d := by
    funext s
    rw [l2Reg]
    simp only [List.map_append, List.sum_append, List.length_append, hm, hn]
  rw [this]
  have hsq : Differentiable ℝ fun x : ℝ => x ^ 2 := differentiable_id.pow 2
  exact ((((hN.weight.sum hsq).fun_add (hl.sum hsq))).div_const _).mul_const _

/-- The objective without lasso is differentiable. -/
theorem primal_smooth (a : Arch) (hc : 0 < a.clamp ∨ a.layerDims = []) (es : List Enc) (hes : ∀ e ∈ es, e.Ordered) (rows : List (ℕ → ℝ))
    (ridge rho alpha : ℝ) {f : ℝ → List ℝ} (hf : DL f) : Differentiable ℝ fun s => primal a es rows 0 ridge rho alpha (f s) := by
  have hN := net_smooth a hf
  have hh := hFunc_smooth a es hN
  have hfw : ∀ (x : ℕ → ℝ) (j : ℕ), Differentiable ℝ fun s => forward a (a.net (f s)) x j := by
    intro x j
    rcases hc with hc | hc
    · exact forward_smooth a hc hN (x := fun _ => x) (fun i => differentiable_const _) j
    · refine forward_smooth_linear a hN (fun s => ?_) (x := fun _ => x) (fun i => differentiable_const _) j
      unfold Arch.net
      rw [hc]
      split <;> rfl
  unfold primal
  simp only
  refine Differentiable.fun_add (Differentiable.fun_add (Differentiable.fun_add ?_ ?_) ?_) ?_
  · refine diff_list_sum es fun e he => ?_
    unfold Enc.loss
    exact (diff_list_sum rows fun x _ => rowLoss_smooth e (hes e he) x (hfw x)).div_const _
  · exact ((hh.const_mul _).fun_mul hh).fun_add (hh.const_mul _)
  · exact (l2Reg_smooth a hN).const_mul _
  · simp

end Verif.Pytorch
