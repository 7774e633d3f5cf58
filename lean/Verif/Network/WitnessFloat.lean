import Verif.Network.QueryFloat
import Verif.Network.Witness
import Verif.BBN.Props

/-!
# Concrete networks fitted in double precision

The data and the structure of `Verif.Network.Witness`, fitted by each of the three methods.
-/

namespace Verif.Network.WitnessFloat

open Function
open Verif.Network.Witness (ns E int int_injective df dict isStructure)

/-- The freshly constructed network. -/
def net₀ : Net ℕ ℚ Double := ⟨[0, 1], [(0, 1)], none, []⟩

/-- The network with its states set. -/
def net₁ : Net ℕ ℚ Double := (setNodeStates net₀ dict).1

/-- The ways to fit it: maximum likelihood, K2, and BDeu with an equivalent sample size of 10. -/
def args : ℕ → FitArgs Double
  | 0 => {}
  | 1 => { method := "BayesianEstimator", prior := some "K2" }
  | _ => { method := "BayesianEstimator", prior := some "BDeu", ess := some ⟨10⟩ }

theorem init_ok : (init ns E : Except Err (Net ℕ ℚ Double)) = .ok net₀ := by
  have h1 : (Graph.weakComponents ns E).length = 1 := by decide
  have h2 : Graph.isDag ns E = true := by decide
  unfold init
  rw [h1, h2]
  rfl

theorem states₀ : statesOf net₁ 0 = [5, 7] := by decide +kernel
theorem states₁ : statesOf net₁ 1 = [5, 7] := by decide +kernel

theorem reach₁ : Reach int ns E net₁ :=
  .states (.init init_ok) (dict := dict) (by decide) (by decide +kernel) rfl

theorem nodes₁ : net₁.nodes = [0, 1] := by
  rw [(reach₁.wf isStructure).nodes]
  decide

theorem states (v : ℕ) (hv : v ∈ net₁.nodes) : statesOf net₁ v = [5, 7] := by
  rw [nodes₁] at hv
  simp only [List.mem_cons, List.not_mem_nil, or_false] at hv
  rcases hv with rfl | rfl
  · exact states₀
  · exact states₁

theorem nonempty₁ : ∀ v ∈ net₁.nodes, statesOf net₁ v ≠ [] := by
  intro v hv
  rw [states v hv]
  decide

theorem fit_ok (k : ℕ) : (fitCpds int net₁ [df] 0 (args k)).2.2 = .ok () := by
  match k with
  | 0 => decide +kernel
  | 1 => decide +kernel
  | n + 2 =>
    have : args (n + 2) = args 2 := rfl
    rw [this]
    decide +kernel

/-- The fitted network. -/
def net₂ (k : ℕ) : Net ℕ ℚ Double := (fitCpds int net₁ [df] 0 (args k)).1

theorem fit_eq (k : ℕ) : fitCpds int net₁ [df] 0 (args k) = (net₂ k, (fitCpds int net₁ [df] 0 (args k)).2.1, .ok ()) := by
  rw [← fit_ok k]
  rfl

theorem ess_pos (k : ℕ) : ∀ n, (args k).ess = some n → 0 < n.val := by
  match k with
  | 0 => simp [args]
  | 1 => simp [args]
  | _ + 2 => simp [args]

theorem size (k : ℕ) : ∀ v ∈ net₁.nodes, df.rows.length + (statesOf net₁ v).length + (args k).exact.ess.getD 0 ≤ 2 ^ 48 := by
  intro v hv
  rw [states v hv]
  match k with
  | 0 => norm_num [args, FitArgs.exact, df]
  | 1 => norm_num [args, FitArgs.exact, df]
  | n + 2 =>
    have : (args (n + 2)).exact.ess.getD 0 = 10 := rfl
    rw [this]
    norm_num [df]

/-- C111 applies to each of the three methods. -/
example (k : ℕ) := fit_cpds_double int_injective isStructure reach₁ nonempty₁ (h := [df]) (ref := 0) (df := df) rfl (ess_pos k) (size k)
  (fit_eq k)

/-- The parents of each node. -/
def par (v : ℕ) : List ℕ := if v = 1 then [0] else []

theorem par_ok : ∀ v ∈ net₁.nodes, IsParentList E v (par v) := by
  rw [nodes₁]
  intro v hv
  simp only [List.mem_cons, List.not_mem_nil, or_false] at hv
  rcases hv with rfl | rfl
  · exact ⟨by decide, by intro p; simp [par, E]⟩
  · exact ⟨by decide, by intro p; simp [par, E]⟩

/-- C111 applies to predictions of the child. -/
example (k : ℕ) := predict_double int_injective isStructure reach₁ nonempty₁ (h₀ := [df]) (ref₀ := 0) (train := df) rfl (ess_pos k)
  (size k) (fit_eq k) (v := 1) (by rw [nodes₁]; decide) (par_ok 1 (by rw [nodes₁]; decide)) (h := [df]) (ref := 0) (df := df) rfl
  (by decide) (by
    intro r hr p hp
    have hp : p ∈ ([0] : List ℕ) := hp
    rw [List.mem_singleton] at hp
    subst hp
    rw [states₀]
    have hr : r ∈ [Witness.row (some 5) (some 5), Witness.row (some 7) (some 7), Witness.row (some 7) (some 7)] := hr
    simp only [List.mem_cons, List.not_mem_nil, or_false] at hr
    rcases hr with rfl | rfl | rfl
    · exact ⟨5, by decide, rfl⟩
    · exact ⟨7, by decide, rfl⟩
    · exact ⟨7, by decide, rfl⟩) (fun _ => []) (fun _ => 9)

/-- C112 for this network: whatever the method, queries about it are answered with a relative error of at most `10⁻¹²`. -/
theorem query_near (k : ℕ) (ev : List (ℕ × ℚ)) (hk : (ev.map Prod.fst).Nodup)
    (hev : ∀ q ∈ ev, q.1 ∈ net₁.nodes ∧ q.2 ∈ statesOf net₁ q.1) :
    ∃ (tables : _) (e : BBN.Engine ℕ ℚ Double), cpds (net₂ k) = .ok tables ∧ BBN.Engine.create (fun _ => true) (framesOf tables) = .ok e ∧
      ∃ out, e.query BBN.exNd ev = .ok out ∧ BBN.ReportsNear (statesOf net₁) net₁.nodes
        (BBN.answerWith (statesOf net₁) net₁.nodes (dataJoint (args k).exact net₁ df par) (fun _ => 5) ev) (1 / 10 ^ 12) out := by
  have hl : net₁.nodes.map (fun v => (statesOf net₁ v).length) = [2, 2] := by
    rw [nodes₁]
    simp [states₀, states₁]
  have hA : BBN.answerBound net₁.nodes.length (net₁.nodes.map fun v => (statesOf net₁ v).length).prod ≤ 1000 := by
    rw [hl, nodes₁]
    decide
  have hM : fitBound net₁ = 18 := by
    unfold fitBound
    rw [nodes₁]
    simp [states₀, states₁]
  obtain ⟨tables, e, h1, h2, h3⟩ := fit_then_query_double_size int_injective isStructure (by decide) reach₁ nonempty₁ (h := [df])
    (ref := 0) (df := df) rfl (ess_pos k) (fit_eq k) par_ok BBN.exNd_legal (okName := fun _ => true) (fun _ _ => rfl)
    (hA.trans (by norm_num)) (by rw [hM]; norm_num)
  obtain ⟨out, h4, h5⟩ := h3 (fun _ => 5) (fun v hv => by rw [states v hv]; decide) ev hk hev
  refine ⟨tables, e, h1, h2, out, h4, h5.vars, h5.states, fun q hq r hr => ?_⟩
  obtain ⟨p1, p2, p3⟩ := h5.probs q hq r hr
  refine ⟨p1, p2, p3.trans ?_⟩
  have hpos : 0 ≤ BBN.answerWith (statesOf net₁) net₁.nodes (dataJoint (args k).exact net₁ df par) (fun _ => 5) ev q.1 r.1 := by
    by_contra hneg
    push Not at hneg
    have hε : (0 : ℚ) < (BBN.answerBound net₁.nodes.length (net₁.nodes.map fun v => (statesOf net₁ v).length).prod + fitBound net₁) /
        2 ^ 51 := by
      rw [hM]
      positivity
    exact absurd ((abs_nonneg _).trans p3) (not_le.2 (mul_neg_of_pos_of_neg hε hneg))
  refine mul_le_mul_of_nonneg_right ?_ hpos
  have hA' : (BBN.answerBound net₁.nodes.length (net₁.nodes.map fun v => (statesOf net₁ v).length).prod : ℚ) ≤ 1000 := by
    exact_mod_cast hA
  rw [hM]
  push_cast
  rw [div_le_iff₀ (by norm_num)]
  norm_num
  linarith

/-- The structure `0 → 1` has no undirected cycle. -/
theorem tree : (SimpleGraph.fromRel fun u v => (u, v) ∈ E).IsAcyclic := by
  have h : (SimpleGraph.fromRel fun u v => (u, v) ∈ E) = ⊥ ⊔ SimpleGraph.edge 0 1 := by
    ext a b
    simp only [SimpleGraph.fromRel_adj, E, List.mem_singleton, Prod.mk.injEq, SimpleGraph.sup_adj, SimpleGraph.edge_adj,
      SimpleGraph.bot_adj, false_or]
    omega
  rw [h, SimpleGraph.isAcyclic_add_edge_iff_of_not_reachable]
  · exact SimpleGraph.isAcyclic_bot
  · exact BBN.not_reachable (T := fun a => a = 0) (by simp) rfl (by decide)

/-- C112 for networks without undirected cycles applies to this network, with tables of four entries. -/
example (k : ℕ) := fit_then_query_double_polytree int_injective isStructure (by decide) tree reach₁ nonempty₁ (h := [df])
    (ref := 0) (df := df) rfl (ess_pos k) (fit_eq k) par_ok BBN.exNd_legal (okName := fun _ => true) (fun _ _ => rfl) (L := 4)
    (by
      rw [nodes₁]
      intro v hv
      simp only [List.mem_cons, List.not_mem_nil, or_false] at hv
      rcases hv with rfl | rfl
      · simp [par, states₀]
      · simp [par, states₀, states₁])
    (by rw [nodes₁]; decide) (by
      unfold fitBound
      rw [nodes₁]
      simp [states₀, states₁])

/-- Under maximum likelihood the exact probability that the root has state 5 is one third; given that the child has state 7 the root has
state 7. -/
example : BBN.answerWith (statesOf net₁) net₁.nodes (dataJoint (args 0).exact net₁ df par) (fun _ => 5) [] 0 5 = 1 / 3 ∧
    BBN.answerWith (statesOf net₁) net₁.nodes (dataJoint (args 0).exact net₁ df par) (fun _ => 5) [(1, 7)] 0 7 = 1 := by
  decide +kernel

end Verif.Network.WitnessFloat
