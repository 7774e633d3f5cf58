import Verif.Generators.StationaryProps
import Verif.Generators.Witness

/-!
# `gen_stationary_dyn_net_and_df`: concrete cases

An attempt without noise succeeds; with two trials its data are returned, with one trial they are thrown away.
-/

namespace Verif.Generators.Witness

open Verif.Notears Verif.Str
open Verif.Dynotears (lagName lagName_inj)

theorem exists_sorts : ∃ order : Graph Str ℚ → List ℕ, Sorts order := by
  have : ∀ g : Graph Str ℚ, ∃ l : List ℕ,
      Verif.Graph.Acyclic (intraEdges (intraNodes g).length fun i j => weightIn g ((intraNodes g).getD i []) ((intraNodes g).getD j [])) →
      IsTopo (List.range (intraNodes g).length)
        (intraEdges (intraNodes g).length fun i j => weightIn g ((intraNodes g).getD i []) ((intraNodes g).getD j [])) l := by
    intro g
    by_cases h : Verif.Graph.Acyclic (intraEdges (intraNodes g).length fun i j =>
        weightIn g ((intraNodes g).getD i []) ((intraNodes g).getD j []))
    · obtain ⟨l, hl⟩ := exists_topo (ns := List.range (intraNodes g).length) List.nodup_range (by
        rintro ⟨i, j⟩ he
        rw [intraEdges, List.mem_filter] at he
        simpa using mem_cells.1 he.1) h
      exact ⟨l, fun _ => hl⟩
    · exact ⟨[], fun h' => absurd h' h⟩
  exact ⟨fun g => (this g).choose, fun g => (this g).choose_spec⟩

/-- Two variables, one lag, five rows, all edges. -/
def args (trials : ℤ) : StatArgs ℚ := ⟨2, 5, 1, ⟨1, 1, "full", "full", 1, 2, 1, 2, 1⟩, "linear-gauss", trials⟩

theorem args_valid (trials : ℤ) : (args trials).Valid :=
  ⟨by norm_num [args], by norm_num [args, abs_of_pos], Or.inr (Or.inl rfl), by norm_num [args], Or.inr rfl, List.mem_cons_self⟩

/-- Without noise. -/
def quiet : Attempt ℚ 2 := ⟨fun _ => some (someDraws 2 1, someInter), fun _ _ => 0, false⟩

theorem quiet_uniform : quiet.Uniform := by
  rintro k r r' h
  obtain ⟨rfl, rfl⟩ := Prod.mk.inj (Option.some.inj h)
  exact ⟨someDraws_uniform _ _, someInter_uniform⟩

theorem quiet_makes (trials : ℤ) : ∃ g, (∀ k, quiet.Makes (args trials) k g) ∧ BothKinds g := by
  obtain ⟨g, hg⟩ := (generateDynamic_total 2 1 ⟨1, 1, "full", "full", 1, 2, 1, 2, 1⟩ (someDraws 2 1) someInter).1.2
    ⟨by norm_num, by norm_num [abs_of_pos], Or.inr (Or.inl rfl), by norm_num, Or.inr rfl⟩
  refine ⟨g, fun k => ⟨_, _, rfl, hg⟩, ⟨1, 0, ?_⟩, 1, 1, 0, by decide, (generateDynamic_inter (someDraws_uniform _ _) someInter_uniform
    (by norm_num) (by norm_num) hg (by norm_num) (by norm_num) (by norm_num) (by norm_num)).2 (Or.inl rfl)⟩
  obtain ⟨intra, hi, h1⟩ := generateDynamic_intra (someDraws_uniform 2 1) hg
  obtain ⟨flags, hf, hp⟩ := mem_pairs (someDraws_uniform 2 1) (by norm_num) hi
  have h2 : (1, 0) ∈ pairs intra := by
    refine (hp 1 0).2 ?_
    simp only [edgeFlags] at hf
    rw [if_neg (by decide), if_neg (by decide), if_pos trivial] at hf
    rw [← Except.ok.inj hf]
    exact ne_of_eq_of_ne (if_pos (show (someDraws 2 1).perm.symm 0 < (someDraws 2 1).perm.symm 1 by decide)) one_ne_zero
  obtain ⟨e, he, h3⟩ := List.mem_map.1 h2
  obtain ⟨e', he', h4, h5, -⟩ := (h1 1 0 e.weight).2 ⟨e, he, (Prod.mk.inj h3).1, (Prod.mk.inj h3).2, rfl⟩
  exact List.mem_map.2 ⟨e', he', by rw [h4, h5]⟩

theorem simulate_quiet (d R : ℕ) (w a : ℕ → ℕ → ℚ) (order : List ℕ) (t : ℕ) :
    simulate d R w a (fun _ => 0) (fun _ _ => 0) order t = (fun _ => 0, fun _ => 0) := by
  have h0 : ∀ order : List ℕ, assignAll (newValue d R w a (fun _ => 0) (fun _ => 0) fun _ => 0) order (fun _ => 0) = fun _ => 0 := by
    intro order
    induction order with
    | nil => rfl
    | cons j order ih =>
      unfold assignAll at ih ⊢
      rw [List.foldl_cons]
      have : Function.update (fun _ => (0 : ℚ)) j (newValue d R w a (fun _ => 0) (fun _ => 0) (fun _ => 0) (fun _ => 0) j) = fun _ => 0 := by
        rw [Function.update_eq_self_iff]
        simp [newValue]
      rw [this, ih]
  induction t with
  | zero => rw [simulate, h0]
  | succ t ih =>
    rw [simulate, ih]
    simp only [ite_self]
    rw [h0]

theorem quiet_succeeds (trials : ℤ) (order : Graph Str ℚ → List ℕ) : ∃ g, quiet.Succeeds (args trials) order g := by
  obtain ⟨g, hg, hb⟩ := quiet_makes trials
  have hd : (args trials).Dag g := (hg 0).dag quiet_uniform
  obtain ⟨F, hF⟩ := data_total hd (show 2 ≠ 0 by decide) (args_valid trials).2.2.2.2.2 (5 + statBurnIn 5) 100 quiet.noise (order g)
  refine ⟨g, ⟨0, hg 0, Or.inl hb, fun l hl => by omega⟩, rfl, show 5 ≠ 0 by decide, F, hF, fun v hv t ht => ⟨0, ?_, by norm_num⟩⟩
  obtain ⟨-, -, -, hr, -, hX, hL⟩ := generateDataframe_ok hd.nodup hF
  have ht' : statBurnIn 5 + t < F.rows := by
    rw [hr, if_neg (by decide)]
    exact Nat.add_comm _ _ ▸ Nat.add_lt_add_right ht _
  rcases List.mem_append.1 ((names_perm g).mem_iff.2 hv) with h | h
  · obtain ⟨j, hj, rfl⟩ := List.mem_iff_getElem.1 h
    have := hX j hj _ ht'
    rw [List.getD_eq_getElem _ _ hj] at this
    rw [show (args trials).nSamples = 5 from rfl, this]
    exact congrArg (fun z : (ℕ → ℚ) × (ℕ → ℚ) => some (z.1 j)) (simulate_quiet _ _ _ _ _ _)
  · obtain ⟨j, hj, rfl⟩ := List.mem_iff_getElem.1 h
    have := hL j hj _ ht'
    rw [List.getD_eq_getElem _ _ hj] at this
    rw [show (args trials).nSamples = 5 from rfl, this]
    exact congrArg (fun z : (ℕ → ℚ) × (ℕ → ℚ) => some (z.2 j)) (simulate_quiet _ _ _ _ _ _)

theorem quiet_ends (trials : ℤ) : quiet.Ends (args trials) 1 := by
  obtain ⟨g, hg, hb⟩ := quiet_makes trials
  exact ⟨0, by decide, Or.inr ⟨g, hg 0, Or.inl hb⟩⟩

/-- With two trials the data of the first attempt are returned. -/
theorem two_trials (order : Graph Str ℚ → List ℕ) : ∃ out, genStationary 1 (args 2) order (fun _ => quiet) = some (.ok out) ∧
    out.warned = false := by
  obtain ⟨out, h⟩ := genStationary_total (As := fun _ => quiet) (args_valid 2) (fun _ => quiet_uniform) (fun _ => quiet_ends 2)
    (fun h => by cases h) order
  exact ⟨out, h, (genStationary_attempts (x := args 2) (As := fun _ => quiet) (fun _ => quiet_uniform) h).1.2
    ⟨0, by norm_num [args], quiet_succeeds 2 order⟩⟩

/-- **The last attempt is thrown away**: with one trial, the same attempt, which succeeds, is followed by the warning that no data could be
simulated, and constant data. -/
theorem one_trial (order : Graph Str ℚ → List ℕ) : (∃ g, quiet.Succeeds (args 1) order g) ∧
    ∃ out, genStationary 1 (args 1) order (fun _ => quiet) = some (.ok out) ∧ out.warned = true := by
  obtain ⟨out, h⟩ := genStationary_total (As := fun _ => quiet) (args_valid 1) (fun _ => quiet_uniform) (fun _ => quiet_ends 1)
    (fun h => by cases h) order
  exact ⟨quiet_succeeds 1 order, out, h, genStationary_single (x := args 1) (As := fun _ => quiet) (fun _ => quiet_uniform) le_rfl h⟩

-- the hypotheses of `genStationary_diverges` are met
example : ∃ (x : StatArgs ℚ) (A : Attempt ℚ x.n), x.Valid ∧ x.p = 0 ∧ x.dyn.degreeIntra ≠ 0 ∧ x.dyn.degreeInter ≠ 0 ∧ A.Uniform ∧
    ∀ k, A.graphs k ≠ none :=
  ⟨⟨2, 5, 0, ⟨1, 1, "full", "full", 1, 2, 1, 2, 1⟩, "linear-gauss", 1000⟩, quiet,
    ⟨by norm_num, by norm_num [abs_of_pos], Or.inr (Or.inl rfl), by norm_num, Or.inr rfl, by decide⟩, rfl, by norm_num, by norm_num,
    quiet_uniform, by simp [quiet]⟩

-- failing computations of graphs lead to a `TypeError`
example (order : Graph Str ℚ → List ℕ) :
    genStationary 1 (args 1) order (fun _ => ⟨fun _ => none, fun _ _ => 0, false⟩) = some (.error .typeError) := by
  unfold genStationary
  rw [statLoop]
  rfl

end Verif.Generators.Witness
