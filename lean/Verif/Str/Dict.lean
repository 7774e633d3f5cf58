import Mathlib.Data.List.Nodup
import Mathlib.Data.List.Perm.Basic

/-!
# Dictionaries

Python's `dict` and `OrderedDict`: key/value pairs in order of insertion.
-/

namespace Verif.Dict

section
variable {K V : Type} [DecidableEq K]

/-- `d.get(k)`. -/
def get? : List (K × V) → K → Option V
  | [], _ => none
  | (k', v) :: d, k => if k' = k then some v else get? d k

/-- `d[k] = v`: an existing key keeps its position. -/
def set : List (K × V) → K → V → List (K × V)
  | [], k, v => [(k, v)]
  | (k', v') :: d, k, v => if k' = k then (k', v) :: d else (k', v') :: set d k v

/-- `d.update(l)`. -/
def update (d l : List (K × V)) : List (K × V) := l.foldl (fun d e => set d e.1 e.2) d

/-- `dict(l)`, also a dictionary comprehension. -/
def ofList (l : List (K × V)) : List (K × V) := update [] l

theorem get?_eq_none {d : List (K × V)} {k : K} : get? d k = none ↔ k ∉ d.map (·.1) := by
  induction d with
  | nil => simp [get?]
  | cons e d ih =>
    obtain ⟨k', v⟩ := e
    rw [get?]
    by_cases h : k' = k
    · simp [h]
    · rw [if_neg h, ih]
      simp [Ne.symm h]

theorem mem_of_get? {d : List (K × V)} {k : K} {v : V} (h : get? d k = some v) : (k, v) ∈ d := by
  induction d with
  | nil => simp [get?] at h
  | cons e d ih =>
    obtain ⟨k', v'⟩ := e
    rw [get?] at h
    by_cases hk : k' = k
    · rw [if_pos hk] at h
      cases h
      subst hk
      exact List.mem_cons_self
    · rw [if_neg hk] at h
      exact List.mem_cons_of_mem _ (ih h)

theorem get?_of_mem {d : List (K × V)} (hd : (d.map (·.1)).Nodup) {k : K} {v : V} (h : (k, v) ∈ d) :
    get? d k = some v := by
  induction d with
  | nil => simp at h
  | cons e d ih =>
    obtain ⟨k', v'⟩ := e
    rw [List.map_cons, List.nodup_cons] at hd
    rw [get?]
    rcases List.mem_cons.1 h with h | h
    · cases h
      rw [if_pos rfl]
    · have : k' ≠ k := by
        rintro rfl
        exact hd.1 (List.mem_map.2 ⟨_, h, rfl⟩)
      rw [if_neg this, ih hd.2 h]

theorem set_of_not_mem {d : List (K × V)} {k : K} {v : V} (h : k ∉ d.map (·.1)) : set d k v = d ++ [(k, v)] := by
  induction d with
  | nil => rfl
  | cons e d ih =>
    obtain ⟨k', v'⟩ := e
    rw [List.map_cons, List.mem_cons, not_or] at h
    rw [set, if_neg (Ne.symm h.1), ih h.2, List.cons_append]

theorem get?_set {d : List (K × V)} {k k' : K} {v : V} :
    get? (set d k v) k' = if k = k' then some v else get? d k' := by
  induction d with
  | nil => rfl
  | cons e d ih =>
    obtain ⟨a, b⟩ := e
    rw [set]
    by_cases h : a = k
    · subst h
      rw [if_pos rfl, get?, get?]
      split <;> rfl
    · rw [if_neg h, get?, ih, get?]
      by_cases h2 : a = k'
      · subst h2
        rw [if_pos rfl, if_pos rfl, if_neg (Ne.symm h)]
      · rw [if_neg h2, if_neg h2]

theorem mem_keys_set {d : List (K × V)} {k k' : K} {v : V} :
    k' ∈ (set d k v).map (·.1) ↔ k' = k ∨ k' ∈ d.map (·.1) := by
  induction d with
  | nil => simp [set]
  | cons e d ih =>
    obtain ⟨a, b⟩ := e
    rw [set]
    split
    · rename_i h
      subst h
      simp
    · rw [List.map_cons, List.mem_cons, ih, List.map_cons, List.mem_cons]
      tauto

theorem nodup_set {d : List (K × V)} {k : K} {v : V} (h : (d.map (·.1)).Nodup) : ((set d k v).map (·.1)).Nodup := by
  induction d with
  | nil => simp [set]
  | cons e d ih =>
    obtain ⟨a, b⟩ := e
    rw [List.map_cons, List.nodup_cons] at h
    rw [set]
    split
    · exact List.nodup_cons.2 h
    · rename_i hne
      rw [List.map_cons, List.nodup_cons]
      refine ⟨?_, ih h.2⟩
      rw [mem_keys_set, not_or]
      exact ⟨hne, h.1⟩

theorem nodup_update {d l : List (K × V)} (h : (d.map (·.1)).Nodup) : ((update d l).map (·.1)).Nodup := by
  unfold update
  induction l generalizing d with
  | nil => exact h
  | cons e l ih => exact ih (nodup_set h)

theorem nodup_ofList (l : List (K × V)) : ((ofList l).map (·.1)).Nodup := nodup_update (by simp)

theorem mem_keys_update {d l : List (K × V)} {k : K} :
    k ∈ (update d l).map (·.1) ↔ k ∈ d.map (·.1) ∨ k ∈ l.map (·.1) := by
  unfold update
  induction l generalizing d with
  | nil => simp
  | cons e l ih =>
    rw [List.foldl_cons, ih, mem_keys_set, List.map_cons, List.mem_cons]
    tauto

theorem mem_keys_ofList {l : List (K × V)} {k : K} : k ∈ (ofList l).map (·.1) ↔ k ∈ l.map (·.1) := by
  unfold ofList
  rw [mem_keys_update]
  simp

/-- New keys are appended. -/
theorem update_eq_append {d l : List (K × V)} (h : ((d ++ l).map (·.1)).Nodup) : update d l = d ++ l := by
  unfold update
  induction l generalizing d with
  | nil => simp
  | cons e l ih =>
    have hn : e.1 ∉ d.map (·.1) := by
      rw [List.map_append, List.map_cons] at h
      have := (List.nodup_append.1 h).2.2
      intro hm
      exact this _ hm _ List.mem_cons_self rfl
    rw [List.foldl_cons, set_of_not_mem hn, ih]
    · simp
    · simpa using h

theorem ofList_eq {l : List (K × V)} (h : (l.map (·.1)).Nodup) : ofList l = l := by
  unfold ofList
  rw [update_eq_append (by simpa using h)]
  rfl

/-- If every value is determined by its key, it can be looked up. -/
theorem get?_ofList_map (l : List K) (f : K → V) (k : K) :
    get? (ofList (l.map fun k => (k, f k))) k = if k ∈ l then some (f k) else none := by
  have key : ∀ (d : List (K × V)), get? (update d (l.map fun k => (k, f k))) k =
      if k ∈ l then some (f k) else get? d k := by
    induction l with
    | nil => intro d; simp [update]
    | cons a l ih =>
      intro d
      have := ih (set d a (f a))
      unfold update at this ⊢
      rw [List.map_cons, List.foldl_cons, this, get?_set]
      by_cases h1 : k ∈ l
      · simp [h1]
      · by_cases h2 : a = k
        · subst h2; simp [h1]
        · simp [h1, h2, Ne.symm h2]
  exact key []

end

end Verif.Dict
