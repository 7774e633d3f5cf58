import Verif.Network.Props

/-!
# Properties of `BayesianNetwork`: encoding of data, validation
-/

namespace Verif.Network

open Verif.BBN (lookup_mem lookup_of_mem_nodup lookup_isSome_iff)
open Function

section
variable {V S K : Type} [LinearOrder V] [LinearOrder S] [Zero K] [One K] [Add K] [Div K] [NatCast K]

/-! ### C09 -/

theorem codeOf_eq_rank {net : Net V S K} {states : List (V × List (S × ℕ))}
    (hst : net.states = some states) (he : EncWF states) {v : V} {s : S}
    (hs : s ∈ statesOf net v) : codeOf states v s = rank net v s := by
  obtain ⟨l, hl, hd⟩ := he v
  rw [statesOf_eq hst, keysOf, hd] at hs
  rw [rank, statesOf_eq hst, codeOf, keysOf, hd]
  have hsl : s ∈ l := mem_encoding_keys.1 hs
  rw [encoding_code hl hsl, Option.getD_some, List.countP_eq_length_filter]
  have hp : ((encoding l).map Prod.fst).Perm l := by
    rw [List.perm_ext_iff_of_nodup (encoding_keys_nodup l) hl]
    intro a
    exact mem_encoding_keys
  exact ((hp.filter _).length_eq).symm

/-- **C09**: encoding a frame replaces each state by its code, so that decoding gives back the
frame.  Partial: a state that is not a state of the node is not rejected, its cell becomes null. -/
theorem encode_roundtrip_partial {int : ℕ → S} (hint : Injective int) {ns : List V}
    {E : List (V × V)} (hE : IsStructure ns E) {net : Net V S K} (hr : Reach int ns E net)
    {states : List (V × List (S × ℕ))} (hst : net.states = some states) {h : Heap V S} {ref : ℕ}
    {df : DF V S} (hdf : h[ref]? = some df) (hc : df.cols.Nodup)
    (hcov : ∀ c ∈ df.cols, c ∈ states.map Prod.fst) :
    ∃ rows', stateToIndex int states h ref df.cols = (h.set ref ⟨df.cols, rows'⟩, .ok ()) ∧
      List.Forall₂ (fun r r' => ∀ c ∈ df.cols,
        (∀ s ∈ statesOf net c, r c = some s →
          r' c = some (int (rank net c s)) ∧ (r' c).bind (decode int net c) = some s) ∧
        ((¬ ∃ s ∈ statesOf net c, r c = some s) → r' c = none)) df.rows rows' := by
  have he := (hr.wf hE).encWF hst
  refine ⟨_, stateToIndex_ok hdf hc (fun _ h => h) hcov, ?_⟩
  rw [List.forall₂_map_right_iff, List.forall₂_same]
  intro r _ c hcc
  simp only [encRow, if_pos hcc]
  constructor
  · intro s hs hrc
    have h1 : mapCell int ((states.lookup c).getD []) (r c) = some (int (rank net c s)) := by
      rw [← codeOf_eq_rank hst he hs]
      exact (mapCell_eq_iff hint he (statesOf_eq hst c ▸ hs) _).2 hrc
    refine ⟨h1, ?_⟩
    rw [h1]
    have hex : ((statesOf net c).find? fun t => int (rank net c t) = int (rank net c s)) = some s := by
      have hsome : ((statesOf net c).find? fun t => int (rank net c t) = int (rank net c s)).isSome := by
        rw [List.find?_isSome]
        exact ⟨s, hs, by simp⟩
      obtain ⟨t, ht⟩ := Option.isSome_iff_exists.1 hsome
      have htm := List.mem_of_find?_eq_some ht
      have hp := List.find?_some ht
      simp only [decide_eq_true_eq] at hp
      have : r c = some t := by
        rw [← mapCell_eq_iff hint he (statesOf_eq hst c ▸ htm), h1, codeOf_eq_rank hst he htm, hp]
      rw [ht, ← this, hrc]
    exact hex
  · intro hno
    rw [← Option.not_isSome_iff_eq_none, mapCell_isSome, ← statesOf_eq hst]
    exact hno

/-- **C09**, what happens instead of rejection: rows with a null or an unknown state are left out
of the estimation. -/
theorem fit_drops_unknown_rows {int : ℕ → S} {ns : List V} {E : List (V × V)}
    (hE : IsStructure ns E) {net : Net V S K} (hr : Reach int ns E net) {h₁ h₂ : Heap V S}
    {r₁ r₂ : ℕ} {df : DF V S} (hd₁ : h₁[r₁]? = some df)
    (hd₂ : h₂[r₂]? = some ⟨df.cols, df.rows.filter fun r => Known net r⟩) (a : FitArgs K) :
    (fitCpds int net h₁ r₁ a).1 = (fitCpds int net h₂ r₂ a).1 ∧
      (fitCpds int net h₁ r₁ a).2.2 = (fitCpds int net h₂ r₂ a).2.2 := by
  have hw := hr.wf hE
  cases hst : net.states with
  | none => simp [fitCpds, hst]
  | some states =>
    have hcomp : completeRows (V := V) ⟨net.nodes, (df.rows.filter fun r => Known net r).map
          (encRow int states net.nodes)⟩ =
        completeRows ⟨net.nodes, df.rows.map (encRow int states net.nodes)⟩ := by
      simp only [completeRows]
      rw [List.filter_map, List.filter_map, List.filter_filter]
      congr 1
      apply List.filter_congr
      intro r _
      simp only [comp, Bool.and_eq_left_iff_imp, decide_eq_true_eq, List.all_eq_true]
      intro hall u hu
      have := hall u hu
      rw [encRow, if_pos hu, mapCell_isSome] at this
      rwa [statesOf_eq hst]
    have e₁ := fitCpds_eq (int := int) hw hst hd₁ a
    have e₂ := fitCpds_eq (int := int) hw hst hd₂ a
    by_cases hc : ∀ v ∈ net.nodes, v ∈ df.cols
    · rw [if_pos hc] at e₁ e₂
      rw [e₁, e₂]
      cases pseudoOf (stateNames int states) a with
      | error e => exact ⟨rfl, rfl⟩
      | ok ps => exact ⟨by simp only [pgmFit, hcomp], rfl⟩
    · rw [if_neg hc] at e₁ e₂
      rw [e₁, e₂]
      exact ⟨rfl, rfl⟩

/-- **C09**: `fit_cpds` leaves all frames of the caller as they are, whether it succeeds or not. -/
theorem fit_keeps_frames {int : ℕ → S} {net net' : Net V S K} {h h' : Heap V S} {ref : ℕ}
    {a : FitArgs K} {r : Except Err Unit} (hf : fitCpds int net h ref a = (net', h', r)) :
    h <+: h' := by
  unfold fitCpds at hf
  split at hf
  · cases hf; exact List.prefix_refl _
  · cases hf; exact List.prefix_refl _
  · simp only at hf
    split at hf
    · have hp : ∀ (df d : DF V S), h <+: h ++ [df] ++ [d] := fun df d => by
        rw [List.append_assoc]
        exact List.prefix_append _ _
      split at hf
      · rename_i hs
        cases hf
        exact stateToIndex_prefix hs (hp _ _) (by simp)
      · rename_i hs
        split at hf <;> cases hf <;> exact stateToIndex_prefix hs (hp _ _) (by simp)
    · cases hf
      exact List.prefix_append _ _

/-! ### C11 -/

/-- The arguments of `fit_cpds` are acceptable. -/
def GoodArgs (a : FitArgs K) : Prop :=
  a.method = "MaximumLikelihoodEstimator" ∨
  a.method = "BayesianEstimator" ∧ (a.prior = some "K2" ∨ a.prior = some "BDeu" ∧ a.ess ≠ none)

theorem pseudoOf_ok_iff {names : V → List S} {a : FitArgs K} :
    (∃ ps, pseudoOf names a = .ok ps) ↔ GoodArgs a := by
  have hne : ("BayesianEstimator" : String) ≠ "MaximumLikelihoodEstimator" := by decide
  have hne' : ("BDeu" : String) ≠ "K2" := by decide
  unfold pseudoOf GoodArgs
  by_cases h1 : a.method = "MaximumLikelihoodEstimator"
  · simp [h1]
  · by_cases h2 : a.method = "BayesianEstimator"
    · simp only [h2, if_neg hne, if_true]
      by_cases h3 : a.prior = some "K2"
      · simp [h3]
      · by_cases h4 : a.prior = some "BDeu"
        · simp only [h4]
          cases a.ess <;> simp
        · simp [h3, h4]
    · simp [h1, h2]

/-- **C11**: `fit_cpds` succeeds iff the states are set, the data has a column for each node, and the
method is known, with a known prior and for BDeu an equivalent sample size. -/
theorem fit_ok_iff {int : ℕ → S} {ns : List V} {E : List (V × V)} (hE : IsStructure ns E)
    {net : Net V S K} (hr : Reach int ns E net) {h : Heap V S} {ref : ℕ} {df : DF V S}
    (hdf : h[ref]? = some df) (a : FitArgs K) :
    (fitCpds int net h ref a).2.2 = .ok () ↔
      net.states ≠ none ∧ (∀ v ∈ net.nodes, v ∈ df.cols) ∧ GoodArgs a := by
  have hw := hr.wf hE
  cases hst : net.states with
  | none => simp [fitCpds, hst]
  | some states =>
    have e := fitCpds_eq (int := int) hw hst hdf a
    by_cases hc : ∀ v ∈ net.nodes, v ∈ df.cols
    · rw [if_pos hc] at e
      rw [e, ← pseudoOf_ok_iff (names := stateNames int states)]
      cases pseudoOf (stateNames int states) a <;> simpa using hc
    · rw [if_neg hc] at e
      rw [e]
      simp [hc]

/-- **C11**: which exception is raised, the checks being made in this order. -/
theorem fit_errors {int : ℕ → S} {ns : List V} {E : List (V × V)} (hE : IsStructure ns E)
    {net : Net V S K} (hr : Reach int ns E net) {h : Heap V S} {ref : ℕ} {df : DF V S}
    (hdf : h[ref]? = some df) (a : FitArgs K) (e : Err)
    (he : (fitCpds int net h ref a).2.2 = .error e) :
    (net.states = none ∧ e = .attributeError) ∨
    (net.states ≠ none ∧ (∃ v ∈ net.nodes, v ∉ df.cols) ∧ e = .keyError) ∨
    (net.states ≠ none ∧ (∀ v ∈ net.nodes, v ∈ df.cols) ∧
      ((a.method = "BayesianEstimator" ∧ a.prior = some "BDeu" ∧ a.ess = none ∧ e = .typeError) ∨
       ((a.method ≠ "MaximumLikelihoodEstimator" ∧
        (a.method = "BayesianEstimator" → a.prior ≠ some "K2" ∧ a.prior ≠ some "BDeu")) ∧
        e = .valueError))) := by
  have hw := hr.wf hE
  cases hst : net.states with
  | none =>
    simp only [fitCpds, hst] at he
    cases he
    exact Or.inl ⟨rfl, rfl⟩
  | some states =>
    right
    have q := fitCpds_eq (int := int) hw hst hdf a
    by_cases hc : ∀ v ∈ net.nodes, v ∈ df.cols
    · right
      rw [if_pos hc] at q
      rw [q] at he
      refine ⟨by simp, hc, ?_⟩
      have hp : pseudoOf (stateNames int states) a = .error e := by
        cases hps : pseudoOf (stateNames int states) a with
        | error e' => rw [hps] at he; simpa using he
        | ok ps => rw [hps] at he; simp at he
      unfold pseudoOf at hp
      split at hp
      · exact absurd hp (by simp)
      · rename_i h1
        split at hp
        · rename_i h2
          split at hp
          · exact absurd hp (by simp)
          · rename_i h3
            split at hp
            · rename_i h4
              split at hp
              · rename_i h5
                cases hp
                exact Or.inl ⟨h2, h4, h5, rfl⟩
              · exact absurd hp (by simp)
            · rename_i h4
              cases hp
              exact Or.inr ⟨⟨h1, fun _ => ⟨h3, h4⟩⟩, rfl⟩
        · rename_i h2
          cases hp
          exact Or.inr ⟨⟨h1, fun h => absurd h h2⟩, rfl⟩
    · left
      rw [if_neg hc] at q
      rw [q] at he
      cases he
      push Not at hc
      exact ⟨by simp, hc, rfl⟩

/-- **C11**: a call of `fit_cpds` that raises leaves the network as it was. -/
theorem fit_error_atomic {int : ℕ → S} {net net' : Net V S K} {h h' : Heap V S} {ref : ℕ}
    {a : FitArgs K} {e : Err} (hf : fitCpds int net h ref a = (net', h', .error e)) : net' = net := by
  unfold fitCpds at hf
  split at hf
  · cases hf; rfl
  · cases hf; rfl
  · simp only at hf
    split at hf
    · split at hf
      · cases hf; rfl
      · split at hf <;> cases hf <;> rfl
    · cases hf; rfl

end

end Verif.Network
