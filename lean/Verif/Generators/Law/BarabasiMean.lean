import Verif.Generators.Props
import Verif.Generators.Law.StructSpec

/-!
# Barabási-Albert structures have fewer edges than asked for (C124)
-/

namespace Verif.Generators

open Verif.Notears

theorem sum_filter_length {l : List ℕ} {n : ℕ} (h : ∀ x ∈ l, x < n) :
    ∑ v ∈ Finset.range n, (l.filter fun x => x = v).length = l.length := by
  induction l with
  | nil => simp
  | cons a l ih =>
    have ih := ih fun x hx => h x (List.mem_cons_of_mem _ hx)
    have ha := h a List.mem_cons_self
    have : ∀ v, ((a :: l).filter fun x => x = v).length = (if a = v then 1 else 0) + (l.filter fun x => x = v).length := by
      intro v
      rw [List.filter_cons]
      by_cases hv : a = v
      · simp [hv, Nat.add_comm]
      · simp [hv]
    simp only [this, Finset.sum_add_distrib, ih, Finset.sum_ite_eq, Finset.mem_range, ha, if_true, List.length_cons]
    omega

/-- **C124**: if twice an integer is asked for as the expected number of edges at a node, the nodes of a Barabási-Albert graph have fewer
edges on average, whatever numbers are drawn: at most `2 * m * (n - 1) / n` instead of `2 * m`. -/
theorem barabasi_degree_less {n m : ℕ} (hm : 0 < m) {wMin wMax : ℝ} {r : Draws ℝ n} (hr : r.Uniform) (h0 : wMin ≠ 0) {g : Graph ℕ ℝ}
    (h : generateStructure n (2 * m : ℝ) "barabasi-albert" wMin wMax r = .ok g) :
    ∑ v ∈ Finset.range n, degreeAt g v ≤ 2 * m * (n - 1) ∧ ((∑ v ∈ Finset.range n, degreeAt g v : ℕ) : ℝ) / n < 2 * m := by
  classical
  have hn := (generateStructure_edges h).1
  have hdag := generateStructure_dag hr h
  obtain ⟨root, hroot, hnone, hout⟩ := generateStructure_barabasi hr h0 h
  have hround : pyRound ((2 * m : ℝ) / 2) = m := by
    rw [mul_div_cancel_left₀ _ (by norm_num)]
    simp [pyRound]
  rw [hround] at hout
  have hE : g.edges.length ≤ m * (n - 1) := by
    have h1 := sum_filter_length (l := g.edges.map (·.src)) (n := n) (by
      intro x hx
      obtain ⟨e, he, rfl⟩ := List.mem_map.1 hx
      exact (hdag.ends e he).1)
    rw [List.length_map] at h1
    rw [← h1]
    have hterm : ∀ v ∈ Finset.range n, ((g.edges.map (·.src)).filter fun x => x = v).length =
        ((Finset.range n).filter fun j => (v, j) ∈ pairs g).card := by
      intro v _
      have e1 : ((g.edges.map (·.src)).filter fun x => x = v).length = ((pairs g).filter fun p => p.1 = v).length := by
        unfold pairs
        rw [List.filter_map, List.filter_map, List.length_map, List.length_map]
        rfl
      rw [e1, ← List.toFinset_card_of_nodup (hdag.simple.filter _)]
      refine Finset.card_bij (fun p _ => p.2) ?_ ?_ ?_
      · rintro ⟨a, b⟩ hp
        simp only [List.mem_toFinset, List.mem_filter, decide_eq_true_eq] at hp
        obtain ⟨hp, rfl⟩ := hp
        obtain ⟨e, he, he'⟩ := List.mem_map.1 hp
        rw [Finset.mem_filter, Finset.mem_range]
        refine ⟨?_, hp⟩
        have := (hdag.ends e he).2
        have h2 : e.dst = b := congrArg Prod.snd he'
        omega
      · rintro ⟨a, b⟩ hp ⟨a', b'⟩ hp' heq
        simp only [List.mem_toFinset, List.mem_filter, decide_eq_true_eq] at hp hp'
        obtain ⟨-, rfl⟩ := hp
        obtain ⟨-, rfl⟩ := hp'
        exact Prod.ext rfl heq
      · intro j hj
        rw [Finset.mem_filter] at hj
        exact ⟨(v, j), by simpa using hj.2, rfl⟩
    rw [Finset.sum_congr rfl hterm, ← Finset.add_sum_erase _ _ (Finset.mem_range.2 hroot)]
    have hz : ((Finset.range n).filter fun j => (root, j) ∈ pairs g).card = 0 := by
      rw [Finset.card_eq_zero, Finset.filter_eq_empty_iff]
      exact fun j _ => hnone j
    rw [hz, Nat.zero_add]
    calc ∑ x ∈ (Finset.range n).erase root, ((Finset.range n).filter fun j => (x, j) ∈ pairs g).card
        ≤ ∑ x ∈ (Finset.range n).erase root, m := by
          apply Finset.sum_le_sum
          intro x hx
          rw [Finset.mem_erase, Finset.mem_range] at hx
          exact_mod_cast (hout x hx.2 hx.1).1
      _ = m * (n - 1) := by
          rw [Finset.sum_const, Finset.card_erase_of_mem (Finset.mem_range.2 hroot), Finset.card_range, smul_eq_mul, mul_comm]
  have hS : ∑ v ∈ Finset.range n, degreeAt g v ≤ 2 * g.edges.length := by
    have h1 := sum_filter_length (l := g.edges.map (·.src)) (n := n) (by
      intro x hx
      obtain ⟨e, he, rfl⟩ := List.mem_map.1 hx
      exact (hdag.ends e he).1)
    have h2 := sum_filter_length (l := g.edges.map (·.dst)) (n := n) (by
      intro x hx
      obtain ⟨e, he, rfl⟩ := List.mem_map.1 hx
      exact (hdag.ends e he).2)
    rw [List.length_map] at h1 h2
    calc ∑ v ∈ Finset.range n, degreeAt g v
        ≤ ∑ v ∈ Finset.range n, (((g.edges.map (·.src)).filter fun x => x = v).length + ((g.edges.map (·.dst)).filter fun x => x = v).length) := by
          apply Finset.sum_le_sum
          intro v _
          unfold degreeAt
          rw [List.filter_map, List.filter_map, List.length_map, List.length_map]
          have : ∀ l : List (Edge ℕ ℝ), (l.filter fun e => decide (e.src = v ∨ e.dst = v)).length ≤
              (l.filter ((fun x => decide (x = v)) ∘ fun e => e.src)).length + (l.filter ((fun x => decide (x = v)) ∘ fun e => e.dst)).length := by
            intro l
            induction l with
            | nil => simp
            | cons e l ih =>
              simp only [List.filter_cons, Function.comp]
              by_cases a1 : e.src = v <;> by_cases a2 : e.dst = v <;> simp [a1, a2, Function.comp] at ih ⊢ <;> omega
          exact this g.edges
      _ = 2 * g.edges.length := by
          rw [Finset.sum_add_distrib, h1, h2]
          omega
  have hT : ∑ v ∈ Finset.range n, degreeAt g v ≤ 2 * m * (n - 1) := by
    refine hS.trans ?_
    rw [mul_assoc]
    exact Nat.mul_le_mul_left _ hE
  refine ⟨hT, ?_⟩
  have hn0 : (0 : ℝ) < n := by
    have : 0 < n := by omega
    exact_mod_cast this
  rw [div_lt_iff₀ hn0]
  have : 2 * m * (n - 1) < 2 * m * n := Nat.mul_lt_mul_of_pos_left (by omega) (by omega)
  exact_mod_cast hT.trans_lt this

end Verif.Generators
