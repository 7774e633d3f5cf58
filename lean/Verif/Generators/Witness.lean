import Verif.Generators.SimulateProps
import Mathlib.Data.Rat.Floor
import Mathlib.Tactic.NormNum

/-!
# Random structures: concrete cases

The hypotheses of the theorems about generated structures and data can be met, and C59 fails in general.
-/

namespace Verif.Generators

open Verif.Notears Verif.Str
open Verif.Dynotears (lagName lagName_inj)

/-- Random numbers that exchange the nodes, with weights in the middle of the range. -/
def someDraws (n : ℕ) (σ : Equiv.Perm (Fin n)) : Draws ℚ n :=
  ⟨fun _ _ => 1 / 4, fun i k => i + k, σ, fun _ _ => 1 / 2, fun i j => if i < j then 1 / 4 else 3 / 4⟩

theorem someDraws_uniform (n : ℕ) (σ : Equiv.Perm (Fin n)) : (someDraws n σ).Uniform :=
  ⟨fun _ _ => by norm_num [someDraws], fun _ _ => by norm_num [someDraws]⟩

def someInter : InterDraws ℚ := ⟨fun _ _ => 0, fun _ _ _ => 1 / 2, fun _ _ _ => 3 / 4⟩

theorem someInter_uniform : someInter.Uniform := ⟨fun _ _ => by norm_num [someInter], fun _ _ _ => by norm_num [someInter]⟩

-- a generated structure with an edge, a chosen order and a negative weight
example : ∃ g, generateStructure 3 2 "erdos-renyi" (1 / 2) 1 (someDraws 3 (Equiv.swap 0 2)) = .ok g ∧
    (someDraws 3 (Equiv.swap 0 2)).Uniform ∧ (0, 1) ∈ pairs g := by
  obtain ⟨g, hg⟩ := (generateStructure_total 3 (2 : ℚ) (1 / 2) 1 "erdos-renyi" (someDraws 3 (Equiv.swap 0 2))).1.2
    ⟨by norm_num, by norm_num [abs_of_pos], Or.inl rfl⟩
  refine ⟨g, hg, someDraws_uniform _ _, ?_⟩
  have := generateStructure_erdos (someDraws_uniform _ _) (by norm_num) hg 0 1
  refine this.2 ⟨by decide, by norm_num [someDraws]⟩

-- full and Barabási-Albert structures
example : ∃ g, generateStructure 4 0 "full" 1 2 (someDraws 4 1) = .ok g ∧ (1 : ℚ) ≠ 0 :=
  ⟨_, ((generateStructure_total 4 (0 : ℚ) 1 2 "full" (someDraws 4 1)).1.2
    ⟨by norm_num, by norm_num [abs_of_pos], Or.inr (Or.inl rfl)⟩).choose_spec, by norm_num⟩

example : ∃ g, generateStructure 4 4 "barabasi-albert" 1 2 (someDraws 4 1) = .ok g ∧ pyRound ((4 : ℚ) / 2) ≠ 0 :=
  ⟨_, ((generateStructure_total 4 (4 : ℚ) 1 2 "barabasi-albert" (someDraws 4 1)).1.2
    ⟨by norm_num, by norm_num [abs_of_pos], Or.inr (Or.inr ⟨rfl, by norm_num⟩)⟩).choose_spec, by decide +kernel⟩

-- half to even
example : pyRound ((1 : ℚ) / 2) = 0 ∧ pyRound ((3 : ℚ) / 2) = 2 ∧ pyRound ((5 : ℚ) / 2) = 2 ∧ pyRound ((-1 : ℚ) / 2) = 0 := by
  decide +kernel

/-- A dynamic structure with decay, all nodes joined. -/
example : ∃ g, generateDynamic 2 3 ⟨1, 1, "full", "full", 1, 2, 1, 2, 2⟩ (someDraws 2 1) someInter = .ok g ∧
    (lagName (natStr 1) 3, lagName (natStr 0) 0) ∈ pairs g := by
  obtain ⟨g, hg⟩ := (generateDynamic_total 2 3 ⟨1, 1, "full", "full", 1, 2, 1, 2, 2⟩ (someDraws 2 1) someInter).1.2
    ⟨by norm_num, by norm_num [abs_of_pos], Or.inr (Or.inl rfl), by norm_num, Or.inr rfl⟩
  exact ⟨g, hg, (generateDynamic_inter (someDraws_uniform _ _) someInter_uniform (by norm_num) (by norm_num) hg
    (by norm_num) (by norm_num) (by norm_num) (by norm_num)).2 (Or.inl rfl)⟩

/-- The nodes of generated dynamic structures are lagged names. -/
theorem generateDynamic_lagged {n p : ℕ} {lo hi lo' hi' decay : ℚ} {g : Graph Str ℚ}
    (h : DynamicDag n p lo hi lo' hi' decay g) : Lagged ((List.range n).map natStr) p g := by
  refine ⟨List.nodup_range.map fun a b h => natStr_inj h, h.nodup, fun v => ?_⟩
  rw [h.nodes]
  constructor
  · rintro ⟨i, hi, k, hk, rfl⟩
    exact ⟨_, List.mem_map.2 ⟨i, List.mem_range.2 hi, rfl⟩, k, hk, rfl⟩
  · rintro ⟨u, hu, k, hk, rfl⟩
    obtain ⟨i, hi, rfl⟩ := List.mem_map.1 hu
    exact ⟨i, List.mem_range.1 hi, k, hk, rfl⟩

-- the hypotheses of `generateDataframe_equation` are met by a structure with edges within and between time slices
example : ∃ (g : Graph Str ℚ) (order : List ℕ) (F : DataFrame ℚ), g.nodes.Nodup ∧
    IsTopo (List.range (intraNodes g).length) (intraEdges (intraNodes g).length fun i j =>
      weightIn g ((intraNodes g).getD i []) ((intraNodes g).getD j [])) order ∧
    generateDataframe g 5 3 "linear-exp" none (fun t j => t + j) order = .ok F ∧
    (lagName (natStr 1) 3, lagName (natStr 0) 0) ∈ pairs g ∧ (lagName (natStr 1) 0, lagName (natStr 0) 0) ∈ pairs g := by
  obtain ⟨g, hg⟩ := (generateDynamic_total 2 3 ⟨1, 1, "full", "full", 1, 2, 1, 2, 2⟩ (someDraws 2 1) someInter).1.2
    ⟨by norm_num, by norm_num [abs_of_pos], Or.inr (Or.inl rfl), by norm_num, Or.inr rfl⟩
  have hd := generateDynamic_dag (someDraws_uniform 2 1) someInter_uniform hg
  obtain ⟨order, ho, F, hF⟩ := generateDataframe_total (generateDynamic_lagged hd) (by decide) (by decide) hd.acyclic 5 3
    (semType := "linear-exp") (by decide) none fun t j => (t + j : ℚ)
  refine ⟨g, order, F, hd.nodup, ho, hF, (generateDynamic_inter (someDraws_uniform _ _) someInter_uniform (by norm_num)
    (by norm_num) hg (by norm_num) (by norm_num) (by norm_num) (by norm_num)).2 (Or.inl rfl), ?_⟩
  obtain ⟨intra, hi, h1⟩ := generateDynamic_intra (someDraws_uniform 2 1) hg
  obtain ⟨flags, hf, hp⟩ := mem_pairs (someDraws_uniform 2 1) (by norm_num) hi
  have h2 : (1, 0) ∈ pairs intra := by
    refine (hp 1 0).2 ?_
    simp only [edgeFlags] at hf
    rw [if_neg (by decide), if_neg (by decide), if_pos trivial] at hf
    rw [← Except.ok.inj hf]
    exact ne_of_eq_of_ne (if_pos (show (someDraws 2 1).perm.symm 0 < (someDraws 2 1).perm.symm 1 by decide)) one_ne_zero
  obtain ⟨e, he, h3⟩ := List.mem_map.1 h2
  obtain ⟨e', he', h4, h5, -⟩ := (h1 1 0 e.weight).2 ⟨e, he, (Prod.mk.inj h3).1, (Prod.mk.inj h3).2, rfl⟩
  exact List.mem_map.2 ⟨e', he', by rw [h4, h5]⟩

/-- A generated structure without edges on two variables and `p` lags, and data from it. -/
theorem noEdges (p : ℕ) : ∃ (g : Graph Str ℚ) (F : DataFrame ℚ) (r : Draws ℚ 2) (r' : InterDraws ℚ) (order : List ℕ),
    generateDynamic 2 p ⟨0, 0, "erdos-renyi", "erdos-renyi", 1, 1, 1, 1, 1⟩ r r' = .ok g ∧ r.Uniform ∧ r'.Uniform ∧
    Lagged [['0'], ['1']] p g ∧ intraNodes g = [lagName ['0'] 0, lagName ['1'] 0] ∧
    IsTopo (List.range (intraNodes g).length) (intraEdges (intraNodes g).length fun i j =>
      weightIn g ((intraNodes g).getD i []) ((intraNodes g).getD j [])) order ∧
    generateDataframe g 3 0 "linear-gauss" none (fun t j => t * j) order = .ok F ∧ F.rows = 3 ∧
    ∀ t < 3, F.get (lagName ['0'] 0) t = some 0 ∧ F.get (lagName ['1'] 0) t = some t := by
  have hr : (someDraws 2 1).Uniform := someDraws_uniform _ _
  obtain ⟨g, hg⟩ := (generateDynamic_total 2 p ⟨0, 0, "erdos-renyi", "erdos-renyi", 1, 1, 1, 1, 1⟩ (someDraws 2 1) someInter).1.2
    ⟨by norm_num, by norm_num, Or.inl rfl, by norm_num, Or.inl rfl⟩
  have hedges : g.edges = [] := by
    obtain ⟨intra, inter, hi, ht, rfl⟩ := generateDynamic_ok hr hg
    have h1 := (generateStructure_erdos_extreme hr (by norm_num) hi).1 le_rfl
    obtain ⟨-, b, hb, -, -, h2⟩ := generateInter_ok ht
    have h3 : inter.edges = [] := by
      rw [List.eq_nil_iff_forall_not_mem]
      intro e he
      obtain ⟨l, hl, i, hi, j, hj, h4, -, -⟩ := (h2 e).1 he
      simp only [interFlags, if_pos, Except.ok.injEq] at hb
      rw [← hb] at h4
      simp [someInter] at h4
    simp [h1, h3]
  have hw : ∀ u v, weightIn g u v = 0 := by
    intro u v
    simp [weightIn, hedges]
  have hlag : Lagged [['0'], ['1']] p g := generateDynamic_lagged (generateDynamic_dag hr someInter_uniform hg)
  have hv : ∀ u ∈ ([['0'], ['1']] : List Str), '_' ∉ u := by decide
  have hintra : intraNodes g = [lagName ['0'] 0, lagName ['1'] 0] := by
    obtain ⟨vs, hperm, hs, hi⟩ := intraNodes_lagged hlag hv
    rw [hi]
    refine List.Perm.eq_of_pairwise (le := (· ≤ ·)) (fun a b _ _ => le_antisymm) (hs 0) ?_ (hperm.map _)
    simp only [lagName_eq]
    decide
  have hE : intraEdges (intraNodes g).length (fun i j =>
      weightIn g ((intraNodes g).getD i []) ((intraNodes g).getD j [])) = [] := by
    unfold intraEdges
    rw [List.filter_eq_nil_iff]
    intro c _
    simp [hw]
  have htopo : IsTopo (List.range (intraNodes g).length) (intraEdges (intraNodes g).length fun i j =>
      weightIn g ((intraNodes g).getD i []) ((intraNodes g).getD j [])) [0, 1] := by
    rw [hE, hintra]
    exact ⟨by decide, by decide, by simp⟩
  have hlen : (interNodes g).length % 2 = 0 := by
    have h1 : g.nodes.length = 2 * (p + 1) := (generateDynamic_dag hr someInter_uniform hg).count
    have h2 := ((List.filter_append_perm isPresent g.nodes).symm.trans
        ((intraNodes_perm g).symm.append (interNodes_perm g).symm)).length_eq
    rw [List.length_append, h1, hintra] at h2
    simp only [List.length_cons, List.length_nil] at h2
    omega
  obtain ⟨F, hF⟩ : ∃ F, generateDataframe g 3 0 "linear-gauss" none (fun t j => (t * j : ℚ)) [0, 1] = .ok F := by
    unfold generateDataframe
    rw [if_neg (by decide)]
    dsimp only
    rw [if_neg (by rw [hintra]; decide), hE, if_neg (by rw [hintra]; decide), if_neg]
    · exact ⟨_, rfl⟩
    · rw [hintra]
      simpa using hlen
  obtain ⟨-, -, -, hrows, -, hX, -⟩ := generateDataframe_ok hlag.nodup hF
  rw [if_neg (by decide)] at hrows
  refine ⟨g, F, _, _, _, hg, hr, someInter_uniform, hlag, hintra, htopo, hF, hrows, ?_⟩
  intro t ht
  have key : ∀ j < 2, F.get ((intraNodes g).getD j []) t = some ((t : ℚ) * j) := by
    intro j hj
    have hj' : j < (intraNodes g).length := by rw [hintra]; exact hj
    rw [hX j hj' t (by omega), simulate_row htopo (fun _ _ => hw _ _) _ hj']
    simp [hw]
  have k0 := key 0 (by decide)
  have k1 := key 1 (by decide)
  rw [hintra] at k0 k1
  constructor
  · rw [show lagName ['0'] 0 = [lagName ['0'] 0, lagName ['1'] 0].getD 0 [] from rfl, k0]
    simp
  · rw [show lagName ['1'] 0 = [lagName ['0'] 0, lagName ['1'] 0].getD 1 [] from rfl, k1]
    simp

/-- **C59 is false**: for a structure made by `generate_structure_dynamic` with two variables and two lags, the
column `0_lag2` is not the column of variable `0` two rows before. -/
theorem generateDataframe_lags_false :
    ¬ ∀ (g : Graph Str ℚ) (vars : List Str) (p n burnIn : ℕ) (noise : ℕ → ℕ → ℚ) (order : List ℕ) (F : DataFrame ℚ),
      Lagged vars p g → (∀ u ∈ vars, '_' ∉ u) →
      generateDataframe g n burnIn "linear-gauss" none noise order = .ok F →
      ∀ u ∈ vars, ∀ k t, 1 ≤ k → k ≤ p → t + k < F.rows → F.get (lagName u k) (t + k) = F.get (lagName u 0) t := by
  intro hall
  obtain ⟨g, F, r, r', order, -, -, -, hlag, -, -, hF, hrows, hval⟩ := noEdges 2
  have h1 := hall g _ 2 3 0 _ order F hlag (by decide) hF ['0'] (by simp) 2 0 (by decide) (by decide) (by rw [hrows]; decide)
  have h2 := generateDataframe_mislabelled hlag hF (t := 1) (by rw [hrows]; decide)
  rw [Nat.zero_add] at h1
  rw [h2, (hval 1 (by decide)).2, (hval 0 (by decide)).1] at h1
  exact absurd h1 (by decide)

-- with one lag the hypotheses of `generateDataframe_lags_partial` are met, and the values are not constant
example : ∃ (g : Graph Str ℚ) (F : DataFrame ℚ), Lagged [['0'], ['1']] 1 g ∧ F.rows = 3 ∧
    (∃ order, generateDataframe g 3 0 "linear-gauss" none (fun t j => t * j) order = .ok F) ∧
    F.get (lagName ['1'] 1) 2 = some 1 ∧ F.get (lagName ['1'] 1) 1 = some 0 := by
  obtain ⟨g, F, r, r', order, -, -, -, hlag, -, -, hF, hrows, hval⟩ := noEdges 1
  refine ⟨g, F, hlag, hrows, ⟨_, hF⟩, ?_, ?_⟩
  · have := generateDataframe_lags_partial hlag (by decide) (Or.inl rfl) hF (u := ['1']) (by simp) (k := 1) (t := 1)
      le_rfl le_rfl (by rw [hrows]; decide)
    rw [this, (hval 1 (by decide)).2]
    rfl
  · have := generateDataframe_lags_partial hlag (by decide) (Or.inl rfl) hF (u := ['1']) (by simp) (k := 1) (t := 0)
      le_rfl le_rfl (by rw [hrows]; decide)
    rw [Nat.zero_add] at this
    rw [this, (hval 0 (by decide)).2]
    rfl

end Verif.Generators
