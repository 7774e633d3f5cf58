import Verif.Evaluation.Limit
import Verif.Evaluation.Witness
import Verif.Network.PropsFit
import Mathlib.Data.Sum.Order
import Mathlib.Probability.Distributions.Uniform
import Mathlib.Probability.Independence.InfinitePi

/-!
# Concrete cases for C141
-/

namespace Verif.Evaluation

open Verif.Network Verif.Str MeasureTheory ProbabilityTheory Filter

/-- For every finite list of rows with states of the variables, and every choice of probabilities for them, there is an infinite sequence of independent rows
from this distribution. -/
theorem testRows_exist {S V : Type} {dom : V → List S} {vs : List V} {k : ℕ} (R : Fin k → V → S) (hR : ∀ j, ∀ u ∈ vs, R j u ∈ dom u)
    (w : PMF (Fin k)) :
    ∃ (Ω : Type) (_ : MeasurableSpace Ω) (P : Measure Ω) (_ : IsProbabilityMeasure P) (X : ℕ → Ω → V → S), TestRows P dom vs X ∧
      ∀ i j, P {ω | X i ω = R j} = w.toMeasure {l | R l = R j} := by
  let P : Measure (ℕ → Fin k) := Measure.infinitePi fun _ => w.toMeasure
  let X : ℕ → (ℕ → Fin k) → V → S := fun i ω => R (ω i)
  let _ : MeasurableSpace ({v // v ∈ vs} → S) := ⊤
  have hpre : ∀ (i : ℕ) (A : Set (Fin k)), P {ω | ω i ∈ A} = w.toMeasure A := fun i A =>
    (measurePreserving_eval_infinitePi (fun _ : ℕ => w.toMeasure) i).measure_preimage (MeasurableSet.nullMeasurableSet trivial)
  refine ⟨ℕ → Fin k, inferInstance, P, inferInstance, X, ⟨fun i => ae_of_all _ fun ω => hR (ω i), fun i => ?_, ?_, fun i B => ?_⟩, fun i j => hpre i {l | R l = R j}⟩
  · have h1 : Measurable fun ω : ℕ → Fin k => ω i := measurable_pi_apply i
    have h2 : Measurable fun j : Fin k => valuesOf vs (R j) := fun _ _ => trivial
    exact h2.comp h1
  · exact iIndepFun_infinitePi (P := fun _ : ℕ => w.toMeasure) (X := fun _ (j : Fin k) => valuesOf vs (R j)) fun _ _ _ => trivial
  · exact (hpre i {j | valuesOf vs (R j) ∈ B}).trans (hpre 0 {j | valuesOf vs (R j) ∈ B}).symm

namespace Limit

/-- States are rational numbers or, in the columns of probabilities, real numbers. -/
abbrev S := ℚ ⊕ₗ ℝ

def st (x : ℚ) : S := toLex (.inl x)

def int (i : ℕ) : S := st i

theorem int_injective : Function.Injective int := fun _ _ h => Nat.cast_injective (Sum.inl_injective (toLex.injective h))

def dict : List (Str × List (Option S)) := [(Witness.p, [some (st 0), some (st 1)]), (['n'], [some (st 2), some (st 3)])]

noncomputable def net₁ : Net Str S ℝ := (setNodeStates (⟨[Witness.p, ['n']], [(Witness.p, ['n'])], none, []⟩ : Net Str S ℝ) dict).1

theorem init_ok : (init Witness.ns Witness.E : Except Err (Net Str S ℝ)) = .ok ⟨[Witness.p, ['n']], [(Witness.p, ['n'])], none, []⟩ := by
  unfold init
  rw [if_neg (by decide +kernel), if_neg (by decide +kernel)]
  rfl

theorem reach₁ : Reach int Witness.ns Witness.E net₁ := .states (.init init_ok) (dict := dict) (by decide) (by decide +kernel) rfl

theorem nodes₁ : net₁.nodes = [Witness.p, ['n']] := by
  rw [(reach₁.wf Witness.isStructure).nodes]
  decide

theorem states_p : statesOf net₁ Witness.p = [st 0, st 1] := by decide +kernel
theorem states_n : statesOf net₁ ['n'] = [st 2, st 3] := by decide +kernel

theorem nonempty : ∀ v ∈ net₁.nodes, statesOf net₁ v ≠ [] := by
  rw [nodes₁]
  intro v hv
  simp only [List.mem_cons, List.not_mem_nil, or_false] at hv
  rcases hv with rfl | rfl
  · rw [states_p]; simp
  · rw [states_n]; simp

/-- The training data: the child has state 2 if the parent is 0, and state 3 if it is 1. -/
def train : DF Str S := ⟨[Witness.p, ['n']], [fun v => if v = Witness.p then some (st 0) else some (st 2),
  fun v => if v = Witness.p then some (st 1) else some (st 3)]⟩

/-- The network is fitted to these data, and the parent of `n` in its table is `p`. -/
theorem fitted : ∃ net' h' tables t, fitCpds int net₁ [train] 0 {} = (net', h', .ok ()) ∧ cpds net' = .ok tables ∧ (['n'], t) ∈ tables ∧
    t.parents = [Witness.p] := by
  have hok := (fit_ok_iff Witness.isStructure reach₁ (h := [train]) (ref := 0) (df := train) rfl ({} : FitArgs ℝ)).2 ⟨by
    have : ∃ states, net₁.states = some states := ⟨_, rfl⟩
    obtain ⟨states, h⟩ := this
    rw [h]
    simp, by rw [nodes₁]; exact fun _ h => h, .inl rfl⟩
  obtain ⟨net', h', res, hf⟩ : ∃ net' h' res, fitCpds int net₁ [train] 0 {} = (net', h', res) := ⟨_, _, _, rfl⟩
  rw [hf] at hok
  simp only at hok
  subst hok
  obtain ⟨-, -, -, tables, hc, hkeys, htab⟩ := fit_cpds_correct int_injective Witness.isStructure reach₁ nonempty (df := train) rfl hf
  have hmem : ['n'] ∈ tables.map Prod.fst := by rw [hkeys, nodes₁]; decide
  obtain ⟨⟨v, t⟩, ht, e⟩ := List.mem_map.1 hmem
  cases e
  refine ⟨net', h', tables, t, hf, hc, ht, ?_⟩
  obtain ⟨-, ⟨hn, hp⟩, -⟩ := htab _ _ ht
  have h1 : ∀ u, u ∈ t.parents ↔ u = Witness.p := by
    intro u
    rw [hp u]
    simp [Witness.E, Verif.Evaluation.Witness.p]
  match t.parents, hn, h1 with
  | [], _, h => exact absurd ((h Witness.p).2 rfl) (by simp)
  | [a], _, h => rw [(h a).1 (by simp)]
  | a :: b :: l, hn, h =>
    have e1 := (h a).1 (by simp)
    have e2 := (h b).1 (by simp)
    rw [e1, e2] at hn
    simp at hn

/-- The kinds of test rows: the prediction is wrong for the last one. -/
def kinds : Fin 3 → Str → S
  | 0 => fun v => if v = Witness.p then st 0 else st 2
  | 1 => fun v => if v = Witness.p then st 1 else st 3
  | 2 => fun v => if v = Witness.p then st 1 else st 2

/-- The names of the states. -/
noncomputable def name (s : S) : Str := if s = st 2 then ['2'] else ['3']

/-- The probability in a cell. -/
noncomputable def toNum (s : S) : Option ℝ := Sum.elim (fun _ => none) some (ofLex s)

/-- There are test rows of all three kinds for this network, and C141 applies to them. -/
example : ∃ net' h' tables t, fitCpds int net₁ [train] 0 {} = (net', h', .ok ()) ∧ cpds net' = .ok tables ∧ (['n'], t) ∈ tables ∧
    ∃ (Ω : Type) (_ : MeasurableSpace Ω) (P : Measure Ω) (_ : IsProbabilityMeasure P) (X : ℕ → Ω → Str → S),
      TestRows P (statesOf net₁) (['n'] :: t.parents) X ∧
      ∃ (g : List S → S) (q : (Str → S) → S → ℝ), (∀ z : Str → S, z Witness.p ∈ statesOf net₁ Witness.p →
          MostLikely (statesOf net₁ ['n']) t [z Witness.p] (g [z Witness.p]) ∧ ∀ s ∈ statesOf net₁ ['n'], t.entry s [z Witness.p] = some (q z s)) ∧
        ∀ᵐ ω ∂P, ∀ ε > 0, ∃ n₀ : ℕ, ∀ n ≥ n₀, ∀ df : DF Str S, df = ⟨[Witness.p, ['n']], List.ofFn fun (i : Fin n) v => some (X i ω v)⟩ →
          (∃ h'' report w, classificationReport (fun _ => []) int (fun v => v ++ ['_', 'p']) name [st 2, st 3] [st 2, st 3] true net' [df] 0 ['n'] =
              (h'', .ok report) ∧ Dict.get? report "weighted avg".toList = some (.scores w) ∧
            |w.recall - P.real {ω | g [X 0 ω Witness.p] = X 0 ω ['n']}| ≤ ε) ∧
          ∃ h'' pts area, rocAuc id (fun _ => .ok fun _ => false) int (fun x => toLex (.inr x)) toNum name [st 2, st 3] [st 2, st 3] net' [df] 0 ['n'] =
              (h'', .ok (pts, some area)) ∧ |area - trueArea P X ['n'] (statesOf net₁ ['n']) q| ≤ ε := by
  obtain ⟨net', h', tables, t, hf, hc, ht, hp⟩ := fitted
  refine ⟨net', h', tables, t, hf, hc, ht, ?_⟩
  have h23 : st 3 ≠ st 2 := fun h => absurd (Sum.inl_injective (toLex.injective h)) (by norm_num)
  have hlt : st 2 < st 3 := Sum.Lex.toLex_lt_toLex.2 (Sum.lex_inl_inl.2 (by norm_num))
  obtain ⟨Ω, m, P, hP, X, hX, -⟩ := testRows_exist (dom := statesOf net₁) (vs := ['n'] :: t.parents) kinds (by
    rw [hp]
    intro j u hu
    simp only [List.mem_cons, List.not_mem_nil, or_false] at hu
    have hne : (['n'] : Str) ≠ Witness.p := by decide
    rcases hu with rfl | rfl
    · rw [states_n]
      fin_cases j <;> simp [kinds, hne]
    · rw [states_p]
      fin_cases j <;> simp [kinds]) (PMF.uniformOfFintype (Fin 3))
  have n2 : name (st 2) = ['2'] := if_pos rfl
  have n3 : name (st 3) = ['3'] := if_neg h23
  obtain ⟨g, hg, hrep⟩ := report_converges int_injective Witness.isStructure reach₁ nonempty hf hc ht hX (fun _ => []) (fun v => v ++ ['_', 'p'])
    (str := name) (by
      rw [states_n]
      intro s hs s' hs' e
      simp only [List.mem_cons, List.not_mem_nil, or_false] at hs hs'
      rcases hs with rfl | rfl <;> rcases hs' with rfl | rfl
      · rfl
      · rw [n2, n3] at e; exact absurd e (by decide)
      · rw [n2, n3] at e; exact absurd e (by decide)
      · rfl) (order := [st 2, st 3]) (order' := [st 2, st 3]) (by rw [states_n]) (by rw [states_n]) true
  obtain ⟨q, hq, hroc⟩ := auc_converges int_injective Witness.isStructure reach₁ nonempty hf hc ht hX id (fun _ => .ok fun _ => false)
    (num := fun x => toLex (.inr x)) (toNum := toNum) (fun _ => rfl) name (order := [st 2, st 3]) (order' := [st 2, st 3]) (by rw [states_n]) (by rw [states_n])
    (by
      rw [hp, states_n]
      intro s hs
      simp only [List.mem_cons, List.not_mem_nil, or_false] at hs
      rcases hs with rfl | rfl
      · rw [fmtName, n2]; decide
      · rw [fmtName, n3]; decide)
    (by
      rw [states_n, List.pairwise_pair, label, label, n2, n3]
      decide) (by rw [states_n]; simp)
  refine ⟨Ω, m, P, hP, X, hX, g, q, fun z hz => ?_, ?_⟩
  · rw [hp] at hg hq
    have hz' : ∀ u ∈ [Witness.p], z u ∈ statesOf net₁ u := fun u hu => by rw [List.mem_singleton.1 hu]; exact hz
    exact ⟨hg z hz', hq z hz'⟩
  · filter_upwards [hrep, hroc] with ω h1 h2 ε hε
    obtain ⟨n₁, hn₁⟩ := h1 ε hε
    obtain ⟨n₂, hn₂⟩ := h2 ε hε
    refine ⟨max n₁ n₂, fun n hn df hdf => ?_⟩
    subst hdf
    have hrows : Verif.Consistent.RowsAre (['n'] :: t.parents) ⟨[Witness.p, ['n']], List.ofFn fun (i : Fin n) v => some (X i ω v)⟩
        (fun i : Fin n => X i ω) := ⟨by rw [hp]; simp, _, rfl, fun _ _ _ => rfl⟩
    obtain ⟨h'', report, e, x, w, k1, -, -, -, k2, k3, k4⟩ := hn₁ n (le_trans (le_max_left _ _) hn) [⟨[Witness.p, ['n']], List.ofFn fun (i : Fin n) v => some (X i ω v)⟩] 0 _ rfl hrows
    rw [hp] at k4
    exact ⟨⟨h'', report, w, k1, k2, by rw [k3]; exact k4⟩, hn₂ n (le_trans (le_max_right _ _) hn) _ 0 _ rfl hrows⟩

end Limit

end Verif.Evaluation
