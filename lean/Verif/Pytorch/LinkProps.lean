import Verif.Pytorch.Link

/-!
# Properties of the inverse links (C64)
-/

namespace Verif.Pytorch

/-! ### Differences of cumulative probabilities -/

/-- Successive differences from `a` up to one. -/
noncomputable def steps : ℝ → List ℝ → List ℝ
  | a, [] => [1 - a]
  | a, b :: l => (b - a) :: steps b l

theorem steps_sum (l : List ℝ) : ∀ a, (steps a l).sum = 1 - a := by
  induction l with
  | nil => simp [steps]
  | cons b l ih => intro a; simp [steps, ih]

theorem steps_length (l : List ℝ) : ∀ a, (steps a l).length = l.length + 1 := by
  induction l with
  | nil => simp [steps]
  | cons b l ih => intro a; simp [steps, ih]

theorem steps_pos (l : List ℝ) : ∀ a, a < 1 → (a :: l).Pairwise (· < ·) → (∀ b ∈ l, b < 1) → ∀ p ∈ steps a l, 0 < p := by
  induction l with
  | nil => intro a h _ _ p hp; simp [steps] at hp; subst hp; linarith
  | cons b l ih =>
    intro a _ hc h p hp
    rw [List.pairwise_cons] at hc
    simp only [steps, List.mem_cons] at hp
    rcases hp with rfl | hp
    · have := hc.1 b (by simp); linarith
    · exact ih b (h b (by simp)) hc.2 (fun x hx => h x (by simp [hx])) p hp

theorem steps_take (l : List ℝ) : ∀ (a : ℝ) (k : ℕ) (c : ℝ), l[k]? = some c → ((steps a l).take (k + 1)).sum = c - a := by
  induction l with
  | nil => intro a k c h; simp at h
  | cons b l ih =>
    intro a k c h
    cases k with
    | zero => simp at h; subst h; simp [steps]
    | succ k =>
      simp at h
      simp only [steps, List.take_succ_cons, List.sum_cons]
      rw [ih b k c h]; ring

theorem steps_cumsum (l : List ℝ) : ∀ a, l ≠ [] → a + l.sum = 1 → steps a (cumsum a l).dropLast = l := by
  induction l with
  | nil => intro a h; exact absurd rfl h
  | cons b l ih =>
    intro a _ hs
    cases l with
    | nil => simp [cumsum, steps] at hs ⊢; linarith
    | cons c l =>
      have := ih (a + b) (by simp) (by simp at hs ⊢; linarith)
      simp only [cumsum, List.dropLast_cons₂, steps] at this ⊢
      rw [this]; simp

theorem zip_steps (cs : List ℝ) : ∀ c : ℝ,
    List.zipWith (· - ·) cs (c :: cs).dropLast ++ [1 - (c :: cs).getLast (by simp)] = steps c cs := by
  induction cs with
  | nil => simp [steps]
  | cons b l ih =>
    intro c
    have := ih b
    simp only [List.dropLast_cons₂, List.zipWith_cons_cons, List.cons_append, steps]
    rw [← this, List.getLast_cons (by simp)]

/-- The class probabilities are the differences of the cumulative ones. -/
theorem ordProbs_eq (odds : List ℝ) (x : ℝ) (h : odds ≠ []) :
    ordProbs odds x = some (steps 0 (odds.map fun c => Real.sigmoid (c - x))) := by
  cases odds with
  | nil => exact absurd rfl h
  | cons o os =>
    simp only [ordProbs, List.map_cons, steps, sub_zero]
    rw [zip_steps]

/-! ### Ordinal data -/

/-- **C64** (ordinal): for ordered thresholds and every latent value, the result is a probability distribution over one more
class than there are thresholds. -/
theorem ordinal_distribution (idx : ℕ) (odds row : List ℝ) (x : ℝ) (hx : row[idx]? = some x) (hne : odds ≠ [])
    (hs : odds.Pairwise (· < ·)) :
    ∃ p, inverseLink (.ord idx odds) row = some p ∧ IsDistribution (odds.length + 1) p := by
  refine ⟨_, by simp only [inverseLink, hx, Option.bind_some]; exact ordProbs_eq odds x hne, ?_, ?_, ?_⟩
  · simp [steps_length]
  · refine steps_pos _ 0 (by norm_num) ?_ ?_
    · rw [List.pairwise_cons]
      refine ⟨?_, ?_⟩
      · intro b hb
        obtain ⟨c, _, rfl⟩ := List.mem_map.1 hb
        exact Real.sigmoid_pos _
      · rw [List.pairwise_map]
        exact hs.imp fun h => Real.sigmoid_strictMono (by linarith)
    · intro b hb
      obtain ⟨c, _, rfl⟩ := List.mem_map.1 hb
      exact Real.sigmoid_lt_one _
  · rw [steps_sum]; norm_num

/-- The probability of being in one of the classes up to `k` is `sigmoid (threshold k - latent)`. -/
theorem ordinal_cumulative (odds : List ℝ) (x c : ℝ) (k : ℕ) (p : List ℝ) (hk : odds[k]? = some c)
    (hp : ordProbs odds x = some p) : (p.take (k + 1)).sum = 1 / (1 + Real.exp (-(c - x))) := by
  have hne : odds ≠ [] := by rintro rfl; simp at hk
  rw [ordProbs_eq odds x hne] at hp
  obtain rfl := Option.some.inj hp
  rw [steps_take _ _ _ (Real.sigmoid (c - x)) (by simp [hk]), sub_zero, Real.sigmoid_def, one_div]

/-- A larger latent value moves probability to higher classes. -/
theorem ordinal_monotone (odds : List ℝ) (x y : ℝ) (k : ℕ) (p q : List ℝ) (hk : k < odds.length) (hxy : x < y)
    (hp : ordProbs odds x = some p) (hq : ordProbs odds y = some q) : (q.take (k + 1)).sum < (p.take (k + 1)).sum := by
  have hc : odds[k]? = some odds[k] := by simp [hk]
  rw [ordinal_cumulative odds x _ k p hc hp, ordinal_cumulative odds y _ k q hc hq]
  have h1 : Real.exp (-(odds[k] - x)) < Real.exp (-(odds[k] - y)) := Real.exp_lt_exp.2 (by linarith)
  have h0 := Real.exp_pos (-(odds[k] - x))
  exact one_div_lt_one_div_of_lt (by linarith) (by linarith)

/-- One class: the lookup of the first threshold fails. -/
theorem ordinal_oneClass (c : ℕ) (x : ℝ) : ordProbs (logCumOdds [c]) x = none := by
  simp [ordProbs, logCumOdds, cumsum]

theorem cumsum_bounds (l : List ℝ) : ∀ a, (∀ b ∈ l, 0 < b) →
    (a :: cumsum a l).Pairwise (· < ·) ∧ ∀ x ∈ cumsum a l, x ≤ a + l.sum := by
  induction l with
  | nil => intro a _; simp [cumsum]
  | cons b l ih =>
    intro a h
    have hb : 0 < b := h b (by simp)
    obtain ⟨h1, h2⟩ := ih (a + b) fun x hx => h x (by simp [hx])
    have hsum : 0 ≤ l.sum := List.sum_nonneg fun x hx => le_of_lt (h x (by simp [hx]))
    refine ⟨?_, ?_⟩
    · rw [cumsum, List.pairwise_cons]
      refine ⟨?_, h1⟩
      intro x hx
      rcases List.mem_cons.1 hx with rfl | hx
      · linarith
      · have := (List.pairwise_cons.1 h1).1 x hx; linarith
    · intro x hx
      rw [cumsum] at hx
      rcases List.mem_cons.1 hx with rfl | hx
      · simp; linarith
      · have := h2 x hx; simp at this ⊢; linarith

theorem cumsum_length (l : List ℝ) : ∀ a, (cumsum a l).length = l.length := by
  induction l with
  | nil => simp [cumsum]
  | cons b l ih => intro a; simp [cumsum, ih]

theorem cumsum_dropLast (l : List ℝ) : ∀ a, (∀ b ∈ l, 0 < b) → ∀ x ∈ (cumsum a l).dropLast, x < a + l.sum := by
  induction l with
  | nil => intro a _ x hx; simp [cumsum] at hx
  | cons b l ih =>
    intro a h x hx
    cases l with
    | nil => simp [cumsum] at hx
    | cons c l =>
      have hr : ∀ y ∈ c :: l, 0 < y := fun y hy => h y (by simp at hy ⊢; tauto)
      have hpos : 0 < (c :: l).sum := List.sum_pos _ hr (by simp)
      have ih' := ih (a + b) hr
      rw [cumsum] at hx
      have hx' : x = a + b ∨ x ∈ (cumsum (a + b) (c :: l)).dropLast := by
        rw [show cumsum (a + b) (c :: l) = (a + b + c) :: cumsum (a + b + c) l from rfl] at hx ⊢
        rw [List.dropLast_cons₂] at hx
        exact List.mem_cons.1 hx
      rcases hx' with rfl | hx'
      · simp at hpos ⊢; linarith
      · have := ih' x hx'; simp at this ⊢; linarith

/-- The class frequencies. -/
noncomputable def frequencies (counts : List ℕ) : List ℝ := counts.map fun c : ℕ => (c : ℝ) / (counts.sum : ℝ)

theorem logCumOdds_def (counts : List ℕ) :
    logCumOdds counts = ((cumsum 0 (frequencies counts)).dropLast).map fun p => Real.log (p / (1 - p)) := by
  have : (counts.map fun c : ℕ => (c : ℝ)).sum = (counts.sum : ℝ) := by
    induction counts with
    | nil => simp
    | cons a l ih => rw [List.map_cons, List.sum_cons, List.sum_cons, Nat.cast_add, ih]
  simp only [logCumOdds, frequencies, this]

theorem frequencies_facts (counts : List ℕ) (hne : counts ≠ []) (hpos : ∀ c ∈ counts, 0 < c) :
    (∀ f ∈ frequencies counts, 0 < f) ∧ (frequencies counts).sum = 1 ∧ (frequencies counts).length = counts.length := by
  have hs : 0 < counts.sum := by
    cases counts with
    | nil => exact absurd rfl hne
    | cons a l => have := hpos a (by simp); simp; omega
  have hs' : (0 : ℝ) < counts.sum := by exact_mod_cast hs
  refine ⟨?_, ?_, by simp [frequencies]⟩
  · intro f hf
    obtain ⟨c, hc, rfl⟩ := List.mem_map.1 hf
    exact div_pos (by exact_mod_cast hpos c hc) hs'
  · have : ∀ (l : List ℕ) (t : ℝ), (l.map fun c : ℕ => (c : ℝ) / t).sum = (l.sum : ℝ) / t := by
      intro l t
      induction l with
      | nil => simp
      | cons a l ih => simp [ih, add_div]
    rw [frequencies, this, div_self (ne_of_gt hs')]

theorem logit_lt {p q : ℝ} (hp : 0 < p) (hpq : p < q) (hq : q < 1) : Real.log (p / (1 - p)) < Real.log (q / (1 - q)) := by
  apply Real.log_lt_log (div_pos hp (by linarith))
  rw [div_lt_div_iff₀ (by linarith) (by linarith)]
  nlinarith

theorem sigmoid_logit {p : ℝ} (hp : 0 < p) (hq : p < 1) : Real.sigmoid (Real.log (p / (1 - p))) = p := by
  have h1 : 0 < 1 - p := by linarith
  rw [Real.sigmoid_def, Real.exp_neg, Real.exp_log (div_pos hp h1), inv_div]
  field_simp
  ring

/-- **C64** (ordinal): the thresholds fitted to any data with at least two classes are ordered, one fewer than the classes. -/
theorem logCumOdds_ordered (counts : List ℕ) (h2 : 2 ≤ counts.length) (hpos : ∀ c ∈ counts, 0 < c) :
    (logCumOdds counts).Pairwise (· < ·) ∧ (logCumOdds counts).length + 1 = counts.length ∧ logCumOdds counts ≠ [] := by
  have hne : counts ≠ [] := by rintro rfl; simp at h2
  obtain ⟨hf, hsum, hlen⟩ := frequencies_facts counts hne hpos
  have hl : (logCumOdds counts).length + 1 = counts.length := by
    rw [logCumOdds_def]; simp [cumsum_length, hlen]; omega
  refine ⟨?_, hl, by rintro h; rw [h] at hl; simp at hl; omega⟩
  rw [logCumOdds_def, List.pairwise_map]
  have hpw := (cumsum_bounds (frequencies counts) 0 hf).1
  rw [List.pairwise_cons] at hpw
  have hdrop : (cumsum 0 (frequencies counts)).dropLast.Pairwise (· < ·) := hpw.2.sublist (List.dropLast_sublist _)
  refine hdrop.imp_of_mem ?_
  intro a b ha hb hab
  have hb1 := cumsum_dropLast (frequencies counts) 0 hf b hb
  rw [hsum] at hb1
  exact logit_lt (hpw.1 a (List.dropLast_subset _ ha)) hab (by linarith)

/-- **C64** (ordinal): after fitting on data with at least two classes, every latent value is mapped to a distribution over the
classes; the latent value zero is mapped to the observed class frequencies. -/
theorem ordinal_fitted (counts : List ℕ) (h2 : 2 ≤ counts.length) (hpos : ∀ c ∈ counts, 0 < c) :
    (∀ (idx : ℕ) (row : List ℝ), idx < row.length →
      ∃ p, inverseLink (.ord idx (logCumOdds counts)) row = some p ∧ IsDistribution counts.length p) ∧
    (∀ (idx : ℕ) (row : List ℝ), row[idx]? = some 0 →
      inverseLink (.ord idx (logCumOdds counts)) row = some (counts.map fun c : ℕ => (c : ℝ) / (counts.sum : ℝ))) := by
  have hne : counts ≠ [] := by rintro rfl; simp at h2
  obtain ⟨hs, hl, hn⟩ := logCumOdds_ordered counts h2 hpos
  obtain ⟨hf, hsum, hlen⟩ := frequencies_facts counts hne hpos
  refine ⟨?_, ?_⟩
  · intro idx row hi
    obtain ⟨p, hp, hd⟩ := ordinal_distribution idx (logCumOdds counts) row row[idx] (by simp [hi]) hn hs
    exact ⟨p, hp, hl ▸ hd⟩
  · intro idx row hr
    simp only [inverseLink, hr, Option.bind_some]
    rw [ordProbs_eq _ _ hn, logCumOdds_def, List.map_map]
    have hpw := (cumsum_bounds (frequencies counts) 0 hf).1
    rw [List.pairwise_cons] at hpw
    have : ((cumsum 0 (frequencies counts)).dropLast.map
        ((fun c => Real.sigmoid (c - 0)) ∘ fun p => Real.log (p / (1 - p)))) = (cumsum 0 (frequencies counts)).dropLast := by
      refine (List.map_congr_left fun a ha => ?_).trans (List.map_id _)
      have h1 := cumsum_dropLast (frequencies counts) 0 hf a ha
      rw [hsum] at h1
      simp only [Function.comp, sub_zero, id]
      exact sigmoid_logit (hpw.1 a (List.dropLast_subset _ ha)) (by linarith)
    rw [this, steps_cumsum _ _ (by rintro h; rw [h] at hlen; simp at hlen; omega) (by rw [hsum]; ring)]
    rfl

/-! ### Categorical data -/

theorem softmax_distribution (v : List ℝ) (hne : v ≠ []) : IsDistribution v.length (softmax v) := by
  have hs : 0 < (v.map Real.exp).sum := by
    apply List.sum_pos
    · intro x hx; obtain ⟨a, _, rfl⟩ := List.mem_map.1 hx; exact Real.exp_pos a
    · simpa using hne
  refine ⟨by simp [softmax], ?_, ?_⟩
  · intro a ha
    obtain ⟨x, _, rfl⟩ := List.mem_map.1 ha
    exact div_pos (Real.exp_pos x) hs
  · have : ∀ (l : List ℝ) (t : ℝ), (l.map fun a => Real.exp a / t).sum = (l.map Real.exp).sum / t := by
      intro l t
      induction l with
      | nil => simp
      | cons a l ih => simp only [List.map_cons, List.sum_cons]; rw [ih]; ring
    rw [softmax, this, div_self (ne_of_gt hs)]

/-- A larger latent value is a larger probability. -/
theorem softmax_order (v : List ℝ) (i k : ℕ) (a b : ℝ) (hi : v[i]? = some a) (hk : v[k]? = some b) :
    (a < b ↔ (softmax v).getD i 0 < (softmax v).getD k 0) := by
  have hs : 0 < (v.map Real.exp).sum := by
    apply List.sum_pos
    · intro x hx; obtain ⟨a, _, rfl⟩ := List.mem_map.1 hx; exact Real.exp_pos a
    · rintro h; rw [List.map_eq_nil_iff] at h; subst h; simp at hi
  simp only [softmax, List.getD_eq_getElem?_getD, List.getElem?_map, hi, hk, Option.map_some, Option.getD_some]
  rw [div_lt_div_iff_of_pos_right hs, Real.exp_lt_exp]

theorem scatter_length (g : List ℕ) : ∀ (v row : List ℝ), (scatter g v row).length = row.length := by
  induction g with
  | nil => simp [scatter]
  | cons i g ih =>
    intro v row
    cases v with
    | nil => simp [scatter]
    | cons a v =>
      have := ih v (row.set i a)
      simp only [scatter, List.zip_cons_cons, List.foldl_cons] at this ⊢
      rw [this]; simp

theorem scatter_other (g : List ℕ) : ∀ (v row : List ℝ) (k : ℕ), k ∉ g → (scatter g v row)[k]? = row[k]? := by
  induction g with
  | nil => simp [scatter]
  | cons i g ih =>
    intro v row k hk
    cases v with
    | nil => simp [scatter]
    | cons a v =>
      simp only [List.mem_cons, not_or] at hk
      have := ih v (row.set i a) k hk.2
      simp only [scatter, List.zip_cons_cons, List.foldl_cons] at this ⊢
      rw [this, List.getElem?_set_ne (fun h => hk.1 h.symm)]

theorem gather_scatter (g : List ℕ) : ∀ (v row : List ℝ), g.Nodup → (∀ i ∈ g, i < row.length) → v.length = g.length →
    gather g (scatter g v row) = some v := by
  induction g with
  | nil => intro v row _ _ hl; simp at hl; subst hl; rfl
  | cons i g ih =>
    intro v row hn hr hl
    cases v with
    | nil => simp at hl
    | cons a v =>
      rw [List.nodup_cons] at hn
      have h1 := ih v (row.set i a) hn.2 (fun k hk => by simpa using hr k (by simp [hk])) (by simpa using hl)
      have h2 := scatter_other g v (row.set i a) i hn.1
      have hi : i < row.length := hr i (by simp)
      simp only [scatter, List.zip_cons_cons, List.foldl_cons] at h1 h2 ⊢
      simp only [gather, List.mapM_cons] at h1 ⊢
      rw [h2, h1]
      simp [hi]

theorem gather_some (g : List ℕ) : ∀ row : List ℝ, (∀ i ∈ g, i < row.length) →
    ∃ v, gather g row = some v ∧ v.length = g.length ∧ v = g.map fun i => row.getD i 0 := by
  intro row h
  induction g with
  | nil => exact ⟨[], rfl, rfl, rfl⟩
  | cons i g ih =>
    obtain ⟨v, hv, hl, he⟩ := ih fun k hk => h k (by simp [hk])
    have hi := h i (by simp)
    refine ⟨row[i] :: v, ?_, by simp [hl], ?_⟩
    · simp only [gather, List.mapM_cons] at hv ⊢
      rw [hv]; simp [hi]
    · simp [he, hi]

/-- **C64** (categorical): for every row and every group of different columns, the columns of the group become a probability
distribution ordered like the latent values, and all other columns keep their values. -/
theorem categorical_distribution (group : List ℕ) (row : List ℝ) (hn : group.Nodup) (hne : group ≠ [])
    (hr : ∀ i ∈ group, i < row.length) :
    ∃ out p, inverseLink (.cat group) row = some out ∧ getColumns (.cat group) out = some p ∧
      IsDistribution group.length p ∧ out.length = row.length ∧ (∀ k, k ∉ group → out[k]? = row[k]?) ∧
      (∀ i ∈ group, ∀ k ∈ group, (row.getD i 0 < row.getD k 0 ↔ out.getD i 0 < out.getD k 0)) := by
  obtain ⟨v, hv, hl, he⟩ := gather_some group row hr
  have hsl : (softmax v).length = group.length := by simp [softmax, hl]
  have hg := gather_scatter group (softmax v) row hn hr hsl
  refine ⟨scatter group (softmax v) row, softmax v, by simp [inverseLink, hv], hg, ?_, scatter_length _ _ _,
    fun k hk => scatter_other _ _ _ _ hk, ?_⟩
  · rw [← hl]; exact softmax_distribution v (by rintro rfl; exact hne (List.eq_nil_of_length_eq_zero hl.symm))
  · obtain ⟨v', hv', _, he'⟩ := gather_some group (scatter group (softmax v) row) (by rw [scatter_length]; exact hr)
    rw [hg] at hv'
    obtain rfl := Option.some.inj hv'
    intro i hi k hk
    obtain ⟨a, ha, hia⟩ := List.getElem_of_mem hi
    obtain ⟨b, hb, hkb⟩ := List.getElem_of_mem hk
    have key := softmax_order v a b (row.getD i 0) (row.getD k 0) (by rw [he]; simp [ha, hia]) (by rw [he]; simp [hb, hkb])
    have e1 : (softmax v).getD a 0 = (scatter group (softmax v) row).getD i 0 := by
      conv_lhs => rw [he']
      simp [ha, hia]
    have e2 : (softmax v).getD b 0 = (scatter group (softmax v) row).getD k 0 := by
      conv_lhs => rw [he']
      simp [hb, hkb]
    rw [key, e1, e2]

/-! ### The remaining types -/

/-- Binary and count data: the own column gets a probability, respectively a positive mean, and no other column changes. -/
theorem scalar_links (idx : ℕ) (row : List ℝ) (x : ℝ) (hx : row[idx]? = some x) :
    (∃ out p, inverseLink (.bin idx) row = some out ∧ out[idx]? = some p ∧ 0 < p ∧ p < 1 ∧
      out.length = row.length ∧ ∀ k, k ≠ idx → out[k]? = row[k]?) ∧
    (∃ out p, inverseLink (.poiss idx) row = some out ∧ out[idx]? = some p ∧ 0 < p ∧
      out.length = row.length ∧ ∀ k, k ≠ idx → out[k]? = row[k]?) ∧
    inverseLink (.cont idx) row = some row := by
  have hi : idx < row.length := by
    by_contra h; rw [List.getElem?_eq_none (by omega)] at hx; cases hx
  refine ⟨⟨row.set idx (Real.sigmoid x), Real.sigmoid x, by simp [inverseLink, mapAt, hx], by simp [hi],
    Real.sigmoid_pos x, Real.sigmoid_lt_one x, by simp, ?_⟩,
    ⟨row.set idx (Real.exp x), Real.exp x, by simp [inverseLink, mapAt, hx], by simp [hi], Real.exp_pos x, by simp, ?_⟩, rfl⟩
  all_goals intro k hk; exact List.getElem?_set_ne (Ne.symm hk)

end Verif.Pytorch
