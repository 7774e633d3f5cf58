import Verif.Network.PropsPredict
import Verif.Network.Witness
import Verif.Network.Pattern
import Verif.Str.Basic
import Mathlib.Data.Char
import Mathlib.Data.List.Lex

/-!
# Properties of `BayesianNetwork`: `predict_probability` with incomplete data (C13)
-/

namespace Verif.Network

open Verif.Str

/-- The name pgmpy gives to the column of a code: `{v}_{i}`. -/
def codeName (v : Str) (i : ℕ) : Str := v ++ '_' :: natStr i

theorem takeWhile_digits {u ds : Str} (h : ∀ c ∈ ds, c.isDigit = true) :
    (u ++ '_' :: ds).reverse.takeWhile Char.isDigit = ds.reverse := by
  have h1 : (u ++ '_' :: ds).reverse = ds.reverse ++ ('_' :: u.reverse) := by simp
  have h2 : Char.isDigit '_' = false := by decide
  rw [h1, List.takeWhile_append_of_pos, List.takeWhile_cons, h2]
  · simp
  · exact fun c hc => h c (List.mem_reverse.1 hc)

/-! ### Specification of the pattern -/

/-- Characters whose special meaning in regular expressions is not modelled. -/
def specials : Str := ['*', '+', '?', '[', ']', '{', '}', '|', '^', '$', '\\']

/-- The name without parentheses. -/
def stripped (v : Str) : Str := v.filter fun c => c ≠ '(' ∧ c ≠ ')'

/-- `u` can be read from `v` by removing all parentheses and replacing each dot by a character other than a line break. -/
def Reads (v u : Str) : Prop := List.Forall₂ (fun p c => p = '.' ∧ c ≠ '\n' ∨ p ≠ '.' ∧ c = p) (stripped v) u

/-- Every closing parenthesis closes an open one and all are closed. -/
def Balanced (v : Str) : Prop := v.count '(' = v.count ')' ∧ ∀ n, (v.take n).count ')' ≤ (v.take n).count '('

/-- A name none of whose characters is special. -/
def PlainName (v : Str) : Prop := ∀ c ∈ v, c ∉ specials ∧ c ≠ '.' ∧ c ≠ '(' ∧ c ≠ ')'

instance (v u : Str) : Decidable (Reads v u) := by unfold Reads; infer_instance

theorem plain_stripped {v : Str} (h : PlainName v) : stripped v = v := by
  rw [stripped, List.filter_eq_self]
  intro c hc
  simpa using ⟨(h c hc).2.2.1, (h c hc).2.2.2⟩

theorem plain_reads {v : Str} (h : PlainName v) (u : Str) : Reads v u ↔ u = v := by
  rw [Reads, plain_stripped h]
  have hd : ∀ c ∈ v, c ≠ '.' := fun c hc => (h c hc).2.1
  clear h
  induction v generalizing u with
  | nil => simp
  | cons a v ih =>
    rw [List.forall_mem_cons] at hd
    cases u with
    | nil => simp
    | cons b u => simp [List.forall₂_cons, hd.1, ih u hd.2]

theorem plain_balanced {v : Str} (h : PlainName v) : Balanced v := by
  have h1 : ∀ n, (v.take n).count ')' = 0 := fun n =>
    List.count_eq_zero.2 fun hc => (h _ (List.mem_of_mem_take hc)).2.2.2 rfl
  refine ⟨?_, fun n => by rw [h1]; omega⟩
  rw [List.count_eq_zero.2 fun hc => (h _ hc).2.2.1 rfl, List.count_eq_zero.2 fun hc => (h _ hc).2.2.2 rfl]

/-! ### The compiled pattern -/

/-- The elements of the pattern of a name without special characters but dots and parentheses. -/
def toksOf (v : Str) : List Tok := (stripped v).map fun c => if c = '.' then .any else .lit c

theorem toksOf_cons (c : Char) (v : Str) : toksOf (c :: v) =
    if c = '(' ∨ c = ')' then toksOf v else (if c = '.' then .any else .lit c) :: toksOf v := by
  unfold toksOf stripped
  by_cases h : c = '(' ∨ c = ')'
  · rw [if_pos h, List.filter_cons_of_neg]
    rcases h with rfl | rfl <;> simp
  · rw [if_neg h, List.filter_cons_of_pos, List.map_cons]
    simpa using not_or.1 h

theorem compileName_cons (d : ℕ) (c : Char) (v : Str) : compileName d (c :: v) =
    if c = '(' then compileName (d + 1) v
    else if c = ')' then (if d = 0 then .error .reError else compileName (d - 1) v)
    else match compileName d v with
      | .error e => .error e
      | .ok ts => .ok ((if c = '.' then .any else .lit c) :: ts) := by
  cases d <;> rfl

theorem balanced_iff (v : Str) (d : ℕ) :
    ((v.count '(' + d = v.count ')' ∧ ∀ n, (v.take n).count ')' ≤ (v.take n).count '(' + d) →
      compileName d v = .ok (toksOf v)) ∧
    (¬ (v.count '(' + d = v.count ')' ∧ ∀ n, (v.take n).count ')' ≤ (v.take n).count '(' + d) →
      compileName d v = .error .reError) := by
  induction v generalizing d with
  | nil =>
    cases d with
    | zero => simp [compileName, toksOf, stripped]
    | succ d => simp [compileName]
  | cons c v ih =>
    have hstep : ∀ (P : ℕ → Prop), (∀ n, P n) ↔ P 0 ∧ ∀ n, P (n + 1) := fun P =>
      ⟨fun h => ⟨h 0, fun n => h _⟩, fun h n => by cases n; exacts [h.1, h.2 _]⟩
    rw [hstep fun n => ((c :: v).take n).count ')' ≤ ((c :: v).take n).count '(' + d, compileName_cons, toksOf_cons]
    simp only [List.take_zero, List.take_succ_cons, List.count_nil, Nat.zero_le, true_and]
    by_cases h1 : c = '('
    · subst h1
      have e : ∀ l : Str, ('(' :: l).count ')' = l.count ')' := fun l => by
        rw [List.count_cons_of_ne (by decide)]
      simp only [List.count_cons_self, e, if_true, true_or]
      have := ih (d + 1)
      have e2 : ∀ a : ℕ, a + 1 + d = a + (d + 1) := fun a => by omega
      simpa only [e2] using this
    · by_cases h2 : c = ')'
      · subst h2
        have e : ∀ l : Str, (')' :: l).count '(' = l.count '(' := fun l => by
          rw [List.count_cons_of_ne (by decide)]
        simp only [List.count_cons_self, e, if_true, or_true, if_neg h1]
        cases d with
        | zero =>
          simp only [if_true, add_zero]
          refine ⟨fun h => ?_, fun _ => trivial⟩
          have := h.2 0
          simp at this
        | succ d =>
          have := ih d
          simp only [Nat.add_sub_cancel, Nat.succ_ne_zero, if_false]
          have e2 : ∀ a : ℕ, a + (d + 1) = a + d + 1 := fun a => by omega
          simpa only [e2, Nat.add_right_cancel_iff, Nat.add_le_add_iff_right] using this
      · have e1 : ∀ l : Str, (c :: l).count '(' = l.count '(' := fun l => List.count_cons_of_ne h1
        have e2 : ∀ l : Str, (c :: l).count ')' = l.count ')' := fun l => List.count_cons_of_ne h2
        simp only [e1, e2, h1, h2, or_self, if_false]
        refine ⟨fun h => ?_, fun h => ?_⟩
        · rw [(ih d).1 h]
        · rw [(ih d).2 h]

/-- The pattern compiles exactly if the parentheses are balanced. -/
theorem compileName_eq (v : Str) : (Balanced v → compileName 0 v = .ok (toksOf v)) ∧
    (¬ Balanced v → compileName 0 v = .error .reError) := balanced_iff v 0

theorem matchToks_iff (ts : List Tok) (c rest : Str) : matchToks ts c = some rest ↔
    ∃ u, c = u ++ rest ∧ List.Forall₂ (fun t a => t.fits a = true) ts u := by
  induction ts generalizing c with
  | nil => simp [matchToks]
  | cons t ts ih =>
    cases c with
    | nil =>
      simp only [matchToks, reduceCtorEq, false_iff, not_exists, not_and]
      intro u hu hf
      cases hf
      simp at hu
    | cons a c =>
      simp only [matchToks]
      by_cases h : t.fits a = true
      · rw [if_pos h, ih]
        constructor
        · rintro ⟨u, rfl, hu⟩
          exact ⟨a :: u, rfl, .cons h hu⟩
        · rintro ⟨u, hc, hu⟩
          cases hu with
          | cons h1 h2 =>
            obtain ⟨rfl, rfl⟩ := List.cons.inj hc
            exact ⟨_, rfl, h2⟩
      · rw [if_neg h]
        simp only [reduceCtorEq, false_iff, not_exists, not_and]
        intro u hc hu
        cases hu with
        | cons h1 h2 =>
          obtain ⟨rfl, rfl⟩ := List.cons.inj hc
          exact h h1

theorem forall₂_toksOf (v u : Str) : List.Forall₂ (fun t a => Tok.fits t a = true) (toksOf v) u ↔ Reads v u := by
  rw [toksOf, List.forall₂_map_left_iff, Reads]
  refine ⟨fun h => h.imp ?_, fun h => h.imp ?_⟩
  · intro p c hpc
    by_cases hp : p = '.'
    · rw [if_pos hp] at hpc
      exact Or.inl ⟨hp, by simpa [Tok.fits] using hpc⟩
    · rw [if_neg hp] at hpc
      simp only [Tok.fits, beq_iff_eq] at hpc
      exact Or.inr ⟨hp, hpc.symm⟩
  · rintro p c (⟨hp, hc⟩ | ⟨hp, hc⟩)
    · rw [if_pos hp]
      simpa [Tok.fits] using hc
    · rw [if_neg hp]
      simp [Tok.fits, hc]

theorem newline_not_digit : Char.isDigit '\n' = false := by decide

/-- `_[0-9]+$`: an underscore, at least one digit, and possibly a line break at the end. -/
theorem matchCode_iff (c : Str) : matchCode c = true ↔
    ∃ ds : Str, ds ≠ [] ∧ (∀ d ∈ ds, d.isDigit = true) ∧ (c = '_' :: ds ∨ c = '_' :: ds ++ ['\n']) := by
  cases c with
  | nil => simp [matchCode]
  | cons a c =>
    by_cases ha : a = '_'
    · subst ha
      simp only [matchCode, Bool.and_eq_true, Bool.not_eq_true', List.isEmpty_eq_false_iff, List.all_eq_true]
      constructor
      · rintro ⟨h1, h2⟩
        refine ⟨_, h1, h2, ?_⟩
        by_cases hl : c.getLast? = some '\n'
        · rw [if_pos hl]
          right
          obtain ⟨l, rfl⟩ := List.getLast?_eq_some_iff.1 hl
          simp
        · rw [if_neg hl]
          left; rfl
      · rintro ⟨ds, h1, h2, h3 | h3⟩
        · obtain rfl : c = ds := by simpa using h3
          have hl : ¬ c.getLast? = some '\n' := by
            intro hl
            have := h2 _ (List.mem_of_getLast? hl)
            rw [newline_not_digit] at this
            cases this
          rw [if_neg hl]
          exact ⟨h1, h2⟩
        · obtain rfl : c = ds ++ ['\n'] := by simpa using h3
          rw [if_pos (by simp)]
          simpa using ⟨h1, h2⟩
    · have : matchCode (a :: c) = false := by
        unfold matchCode
        split
        · rename_i h; exact absurd (List.cons.inj h).1 ha
        · rfl
      rw [this]
      constructor
      · intro h; cases h
      · rintro ⟨ds, -, -, h | h⟩
        · exact absurd (List.cons.inj h).1 ha
        · exact absurd (List.cons.inj h).1 ha

/-- **C93**, which columns are selected, for any names of columns (of the special
characters dots and parentheses are modelled): the pattern of a name is rejected iff its parentheses are not balanced;
otherwise it selects what reads like the name, followed by an underscore and digits, and possibly by a line break. -/
theorem namePattern_iff (v : Str) :
    (¬ Balanced v → ∀ f, namePattern v ≠ .ok f) ∧
    (Balanced v → ∃ f, namePattern v = .ok f ∧ ∀ c, f c = true ↔
      ∃ u ds : Str, Reads v u ∧ ds ≠ [] ∧ (∀ d ∈ ds, d.isDigit = true) ∧ (c = u ++ '_' :: ds ∨ c = u ++ '_' :: ds ++ ['\n'])) := by
  constructor
  · intro hb f hf
    rw [namePattern, (compileName_eq v).2 hb] at hf
    cases hf
  · intro hb
    rw [namePattern, (compileName_eq v).1 hb]
    refine ⟨_, rfl, fun c => ?_⟩
    constructor
    · intro h
      split at h
      · rename_i rest hm
        obtain ⟨u, hu, hf⟩ := (matchToks_iff _ _ _).1 hm
        rw [forall₂_toksOf] at hf
        obtain ⟨ds, h1, h2, h3⟩ := (matchCode_iff rest).1 h
        refine ⟨u, ds, hf, h1, h2, ?_⟩
        rcases h3 with rfl | rfl
        · exact Or.inl hu
        · exact Or.inr (by rw [hu]; simp)
      · cases h
    · rintro ⟨u, ds, hr, h1, h2, h3⟩
      obtain ⟨rest, hc, hrest⟩ : ∃ rest, c = u ++ rest ∧ (rest = '_' :: ds ∨ rest = '_' :: ds ++ ['\n']) := by
        rcases h3 with rfl | rfl
        · exact ⟨_, rfl, Or.inl rfl⟩
        · exact ⟨'_' :: ds ++ ['\n'], by simp, Or.inr rfl⟩
      have hm := (matchToks_iff (toksOf v) c rest).2 ⟨u, hc, (forall₂_toksOf v u).2 hr⟩
      rw [hm]
      exact (matchCode_iff rest).2 ⟨ds, h1, h2, hrest⟩

/-- Which columns of codes the pattern selects. -/
theorem matchToks_codeName (v u : Str) (i : ℕ) :
    (match matchToks (toksOf v) (codeName u i) with
      | some rest => matchCode rest
      | none => false) = true ↔ Reads v u := by
  constructor
  · intro h
    split at h
    · rename_i rest hm
      obtain ⟨w, hw, hf⟩ := (matchToks_iff _ _ _).1 hm
      rw [forall₂_toksOf] at hf
      cases rest with
      | nil => simp [matchCode] at h
      | cons a ds =>
        by_cases ha : a = '_'
        · subst ha
          have hlast : ds.getLast? ≠ some '\n' := by
            intro hl
            have h0 : (codeName u i).getLast? = some '\n' := by
              rw [hw, List.getLast?_append, List.getLast?_cons, hl]
              simp
            have h1 : '\n' ∈ natStr i := by
              rw [codeName, List.getLast?_append, List.getLast?_cons] at h0
              cases hn : (natStr i).getLast? with
              | none => exact absurd (List.getLast?_eq_none_iff.1 hn) (natStr_ne_nil i)
              | some a =>
                rw [hn] at h0
                simp only [Option.getD_some, Option.some_or, Option.some.injEq] at h0
                subst h0
                exact List.mem_of_getLast? hn
            have := natStr_digit h1
            rw [newline_not_digit] at this
            cases this
          simp only [matchCode, if_neg hlast, Bool.and_eq_true, List.all_eq_true] at h
          have h3 := takeWhile_digits (u := u) fun c hc => natStr_digit (n := i) hc
          rw [show u ++ '_' :: natStr i = codeName u i from rfl, hw, takeWhile_digits h.2] at h3
          have h4 : ds = natStr i := List.reverse_injective h3
          subst h4
          have : w = u := (List.append_cancel_right hw).symm
          exact this ▸ hf
        · unfold matchCode at h
          split at h
          · rename_i heq
            exact absurd (List.cons.inj heq).1 ha
          · cases h
    · cases h
  · intro h
    have hm : matchToks (toksOf v) (codeName u i) = some ('_' :: natStr i) :=
      (matchToks_iff _ _ _).2 ⟨u, rfl, (forall₂_toksOf v u).2 h⟩
    rw [hm]
    have hlast : (natStr i).getLast? ≠ some '\n' := fun hl => by
      have := natStr_digit (List.mem_of_getLast? hl)
      rw [newline_not_digit] at this
      cases this
    simp only [matchCode, if_neg hlast, Bool.and_eq_true, List.all_eq_true]
    refine ⟨?_, fun c hc => natStr_digit hc⟩
    have := natStr_ne_nil i
    cases h : natStr i <;> simp_all

section
variable {S K : Type} [LinearOrder S] [Field K] [LinearOrder K]

theorem flatMap_filter {missing : List Str} (v : Str) (card : Str → ℕ) (f : Str → Bool)
    (hf : ∀ u i, f (codeName u i) = true ↔ Reads v u) :
    (missing.flatMap fun u => (List.range (card u)).map (codeName u)).filter f =
      (missing.filter (Reads v)).flatMap fun u => (List.range (card u)).map (codeName u) := by
  induction missing with
  | nil => rfl
  | cons u l ih =>
    rw [List.flatMap_cons, List.filter_append, ih]
    by_cases h : Reads v u
    · rw [List.filter_cons_of_pos (by simpa using h), List.flatMap_cons, List.filter_eq_self.2]
      intro c hc
      obtain ⟨i, -, rfl⟩ := List.mem_map.1 hc
      exact (hf u i).2 h
    · rw [List.filter_cons_of_neg (by simpa using h), List.filter_eq_nil_iff.2, List.nil_append]
      intro c hc
      obtain ⟨i, -, rfl⟩ := List.mem_map.1 hc
      rw [hf]
      exact h

/-- **C93**: with incomplete data, if the inference (pgmpy) returns a column for each code of each variable without data, then
for a node whose name has no special characters but dots and parentheses: if the parentheses are not balanced `re.error` is
raised; else the result is the columns of all variables without data whose names can be read from that of the node by removing
parentheses and replacing dots by other characters. -/
theorem predict_probability_incomplete_columns {int : ℕ → S} {net : Net Str S K} {states : List (Str × List (S × ℕ))}
    (hst : net.states = some states) {h : Heap Str S} {ref : ℕ} {df : DF Str S} (hdf : h[ref]? = some df) (hnd : df.cols.Nodup)
    (hcov : ∀ c ∈ df.cols, c ∈ states.map Prod.fst) {v : Str} (hv : v ∈ df.cols) (_hsp : ∀ c ∈ v, c ∉ specials)
    (hvn : v ∈ net.nodes) {p : Str} (hp : (p, v) ∈ net.edges) (hpc : p ∉ df.cols)
    (oracle : DF Str S → DF Str S) (num : K → S) (fmt : Str → S → Str) (order : List S) {missing : List Str}
    (hor : (oracle ⟨df.cols.filter (· ≠ v), df.rows.map (encRow int states df.cols)⟩).cols =
      missing.flatMap fun u => (List.range (statesOf net u).length).map (codeName u)) :
    ∃ h', h <+: h' ∧
      (¬ Balanced v → predictProbability oracle namePattern int num fmt order net h ref v = (h', .error .reError)) ∧
      (Balanced v → ∃ out, predictProbability oracle namePattern int num fmt order net h ref v = (h', .ok out) ∧
        out.cols = (missing.filter (Reads v)).flatMap (fun u => (List.range (statesOf net u).length).map (codeName u)) ∧
        out.rows = (oracle ⟨df.cols.filter (· ≠ v), df.rows.map (encRow int states df.cols)⟩).rows) := by
  obtain ⟨d, h1, hd⟩ := incompleteData_ok (int := int) hst hdf hnd hcov hv
  have hd' : d = ⟨df.cols.filter (· ≠ v), df.rows.map (encRow int states df.cols)⟩ := by
    rw [hd]
    congr
    funext x
    congr
  clear hd
  subst hd'
  have key : predictProbability oracle namePattern int num fmt order net h ref v =
      (h ++ [⟨df.cols, df.rows.map (encRow int states df.cols)⟩], match namePattern v with
        | .error err => .error err
        | .ok isMatch => .ok ⟨(oracle ⟨df.cols.filter (· ≠ v), df.rows.map (encRow int states df.cols)⟩).cols.filter isMatch,
            (oracle ⟨df.cols.filter (· ≠ v), df.rows.map (encRow int states df.cols)⟩).rows⟩) := by
    rw [predictProbability, hdf]
    simp only
    rw [if_neg (by simpa using hvn), not_complete hp hpc]
    simp only [Bool.false_eq_true, if_false]
    rw [predictProbIncomplete, h1]
    simp only
    cases namePattern v <;> rfl
  refine ⟨h ++ [⟨df.cols, df.rows.map (encRow int states df.cols)⟩], List.prefix_append _ _, fun hb => ?_, fun hb => ?_⟩
  · rw [key, namePattern, (compileName_eq v).2 hb]
  · rw [key, namePattern, (compileName_eq v).1 hb]
    refine ⟨_, rfl, ?_, rfl⟩
    dsimp only
    rw [hor]
    exact flatMap_filter v (fun u => (statesOf net u).length) _ fun u i => matchToks_codeName v u i

theorem filter_eq_singleton {missing : List Str} (hm : missing.Nodup) {v : Str} (hv : v ∈ missing) :
    missing.filter (fun u => decide (u = v)) = [v] := by
  have h2 : (fun u => decide (u = v)) = fun u => u == v := by
    funext u; rw [Bool.eq_iff_iff]; simp
  rw [h2, List.filter_beq, List.count_eq_one_of_mem hm hv]
  rfl

/-- **C13**, **C93** for `predict_probability`: with incomplete data, if the inference (pgmpy) returns a column for each code of each
variable without data (in any order of the variables), the result is the columns of the node, with all rows, and named by codes.
Partial: the names are those of the states only if these are `0..k-1`, see `predict_probability_incomplete_codes`; names with
special characters select other columns, see `predict_probability_incomplete_columns`. -/
theorem predict_probability_incomplete_partial {int : ℕ → S} {net : Net Str S K} {states : List (Str × List (S × ℕ))}
    (hst : net.states = some states) {h : Heap Str S} {ref : ℕ} {df : DF Str S} (hdf : h[ref]? = some df) (hnd : df.cols.Nodup)
    (hcov : ∀ c ∈ df.cols, c ∈ states.map Prod.fst) {v : Str} (hv : v ∈ df.cols) (hpl : PlainName v)
    (hvn : v ∈ net.nodes) {p : Str} (hp : (p, v) ∈ net.edges) (hpc : p ∉ df.cols)
    (oracle : DF Str S → DF Str S) (num : K → S) (fmt : Str → S → Str) (order : List S)
    {missing : List Str} (hm : missing.Nodup) (hvm : v ∈ missing)
    (hor : (oracle ⟨df.cols.filter (· ≠ v), df.rows.map (encRow int states df.cols)⟩).cols =
      missing.flatMap fun u => (List.range (statesOf net u).length).map (codeName u)) :
    ∃ h' out, predictProbability oracle namePattern int num fmt order net h ref v = (h', .ok out) ∧ h <+: h' ∧
      out.cols = (List.range (statesOf net v).length).map (codeName v) ∧
      out.rows = (oracle ⟨df.cols.filter (· ≠ v), df.rows.map (encRow int states df.cols)⟩).rows := by
  obtain ⟨h', h1, -, h2⟩ := predict_probability_incomplete_columns hst hdf hnd hcov hv (fun c hc => (hpl c hc).1) hvn hp hpc
    oracle num fmt order hor
  obtain ⟨out, h3, h4, h5⟩ := h2 (plain_balanced hpl)
  refine ⟨h', out, h3, h1, ?_, h5⟩
  rw [h4]
  simp only [plain_reads hpl]
  rw [filter_eq_singleton hm hvm]
  simp

/-- **C93**: a node whose name has balanced parentheses never gets its own columns. -/
theorem parentheses_read_other {v : Str} (h : '(' ∈ v) : ¬ Reads v v := by
  intro hr
  have h1 := List.Forall₂.length_eq hr
  have h2 : (stripped v).length < v.length := by
    rw [stripped, List.length_filter_lt_length_iff_exists]
    exact ⟨'(', h, by simp⟩
  omega

/-- Predicting probabilities changes no frame of the caller with incomplete data, whatever happens. -/
theorem predict_probability_incomplete_keeps_frames {V : Type} [LinearOrder V] {int : ℕ → S} {net : Net V S K} {h h' : Heap V S}
    {ref : ℕ} {v : V} {oracle : DF V S → DF V S} {pattern : V → Except Err (V → Bool)} {r : Except Err (DF V S)}
    (hp : predictProbIncomplete oracle pattern int net h ref v = (h', r)) : h <+: h' := by
  unfold predictProbIncomplete at hp
  cases hi : incompleteData int net h ref v with
  | mk h'' r'' =>
    have : h <+: h'' := by
      unfold incompleteData at hi
      split at hi
      · cases hi; exact List.prefix_refl _
      · cases hi; exact List.prefix_append _ _
      · simp only at hi
        split at hi
        · rename_i hs
          cases hi
          exact stateToIndex_prefix hs (List.prefix_append _ _) (le_refl _)
        · rename_i hs
          have := stateToIndex_prefix hs (List.prefix_append h _) (le_refl _)
          split at hi
          · cases hi; exact this
          · split at hi <;> cases hi <;> exact this
    rw [hi] at hp
    cases r'' with
    | error e => cases hp; exact this
    | ok d =>
      dsimp only at hp
      split at hp <;> cases hp <;> exact this

end

namespace Witness

/-- A node with states 3 and 7 and an unobserved parent. -/
def netP : Net Str ℚ ℚ := ⟨[['a'], ['b']], [(['a'], ['b'])], some [(['a'], [(5, 0), (6, 1)]), (['b'], [(3, 0), (7, 1)])], []⟩

/-- The columns are named `b_0` and `b_1`, although the states are 3 and 7. -/
theorem predict_probability_incomplete_codes (oracle : DF Str ℚ → DF Str ℚ) (num : ℚ → ℚ) (fmt : Str → ℚ → Str) (order : List ℚ)
    (df : DF Str ℚ) (hdf : df.cols = [['b']])
    (hor : ∀ d, (oracle d).cols = [['a'], ['b']].flatMap fun u => (List.range (statesOf netP u).length).map (codeName u)) :
    ∃ h' out, predictProbability oracle namePattern (fun i => (i : ℚ)) num fmt order netP [df] 0 ['b'] = (h', .ok out) ∧
      out.cols = [['b', '_', '0'], ['b', '_', '1']] ∧ statesOf netP ['b'] = [3, 7] := by
  obtain ⟨h', out, h1, -, h2, -⟩ := predict_probability_incomplete_partial (int := fun i => (i : ℚ)) (net := netP) rfl
    (h := [df]) (ref := 0) rfl (by rw [hdf]; decide) (by rw [hdf]; decide +kernel) (v := ['b']) (by rw [hdf]; decide)
    (by unfold PlainName; decide) (by decide +kernel) (p := ['a']) (by decide +kernel) (by rw [hdf]; decide) oracle num fmt order (by decide) (by decide) (hor _)
  refine ⟨h', out, h1, ?_, by decide +kernel⟩
  rw [h2]
  decide +kernel

/-- Nodes `a.b` and `axb` with states 0 and 1, and an unobserved common parent. -/
def netD : Net Str ℚ ℚ :=
  ⟨[['p'], ['a', '.', 'b'], ['a', 'x', 'b']], [(['p'], ['a', '.', 'b']), (['p'], ['a', 'x', 'b'])],
    some [(['p'], [(0, 0), (1, 1)]), (['a', '.', 'b'], [(0, 0), (1, 1)]), (['a', 'x', 'b'], [(0, 0), (1, 1)])], []⟩

/-- Asked for the probabilities of `a.b` from a frame with that column only, `predict_probability` returns the columns of
`axb` too. -/
theorem predict_probability_dot (oracle : DF Str ℚ → DF Str ℚ) (num : ℚ → ℚ) (fmt : Str → ℚ → Str) (order : List ℚ)
    (df : DF Str ℚ) (hdf : df.cols = [['a', '.', 'b']])
    (hor : ∀ d, (oracle d).cols = [['p'], ['a', '.', 'b'], ['a', 'x', 'b']].flatMap fun u =>
      (List.range (statesOf netD u).length).map (codeName u)) :
    ∃ h' out, predictProbability oracle namePattern (fun i => (i : ℚ)) num fmt order netD [df] 0 ['a', '.', 'b'] = (h', .ok out) ∧
      out.cols = [['a', '.', 'b', '_', '0'], ['a', '.', 'b', '_', '1'], ['a', 'x', 'b', '_', '0'], ['a', 'x', 'b', '_', '1']] := by
  obtain ⟨h', -, -, h1⟩ := predict_probability_incomplete_columns (int := fun i => (i : ℚ)) (net := netD) rfl
    (h := [df]) (ref := 0) rfl (by rw [hdf]; decide) (by rw [hdf]; decide +kernel) (v := ['a', '.', 'b']) (by rw [hdf]; decide)
    (by decide) (by decide +kernel) (p := ['p']) (by decide +kernel) (by rw [hdf]; decide) oracle num fmt order (hor _)
  obtain ⟨out, h2, h3, -⟩ := h1 ⟨by decide, fun n => by
    rw [List.count_eq_zero.2 fun hc => absurd (List.mem_of_mem_take hc) (by decide)]; omega⟩
  refine ⟨h', out, h2, ?_⟩
  rw [h3]
  decide +kernel

/-- A node `x(y)` with states 0 and 1 and an unobserved parent. -/
def netQ : Net Str ℚ ℚ :=
  ⟨[['p'], ['x', '(', 'y', ')']], [(['p'], ['x', '(', 'y', ')'])],
    some [(['p'], [(0, 0), (1, 1)]), (['x', '(', 'y', ')'], [(0, 0), (1, 1)])], []⟩

/-- Asked for the probabilities of `x(y)`, `predict_probability` returns no column. -/
theorem predict_probability_parenthesis (oracle : DF Str ℚ → DF Str ℚ) (num : ℚ → ℚ) (fmt : Str → ℚ → Str) (order : List ℚ)
    (df : DF Str ℚ) (hdf : df.cols = [['x', '(', 'y', ')']])
    (hor : ∀ d, (oracle d).cols = [['p'], ['x', '(', 'y', ')']].flatMap fun u =>
      (List.range (statesOf netQ u).length).map (codeName u)) :
    ∃ h' out, predictProbability oracle namePattern (fun i => (i : ℚ)) num fmt order netQ [df] 0 ['x', '(', 'y', ')'] =
      (h', .ok out) ∧ out.cols = [] := by
  obtain ⟨h', -, -, h1⟩ := predict_probability_incomplete_columns (int := fun i => (i : ℚ)) (net := netQ) rfl
    (h := [df]) (ref := 0) rfl (by rw [hdf]; decide) (by rw [hdf]; decide +kernel) (v := ['x', '(', 'y', ')'])
    (by rw [hdf]; decide)
    (by decide) (by decide +kernel) (p := ['p']) (by decide +kernel) (by rw [hdf]; decide) oracle num fmt order (hor _)
  obtain ⟨out, h2, h3, -⟩ := h1 ⟨by decide, fun n => by
    rcases n with _ | _ | _ | _ | n
    · decide
    · decide
    · decide
    · decide
    · simp [List.take]⟩
  refine ⟨h', out, h2, ?_⟩
  rw [h3]
  decide +kernel

end Witness

end Verif.Network
