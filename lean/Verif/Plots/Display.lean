import Verif.Str.Basic
import Mathlib.Algebra.Order.Field.Rat
import Mathlib.Data.List.Basic
import Mathlib.Tactic.Linarith
import Mathlib.Tactic.Positivity

/-!
# C132: displaying plots

Model of `display_plot_ipython` and `display_plot_mpl` (`plots/display.py`).  Rendering by Graphviz and decoding of the picture are
parameters that may raise; figures and axes of matplotlib are mutable objects: positions in lists.
-/

namespace Verif.Plots.Display

open Verif.Str

/-- What can be raised. -/
inductive Err where
  | importError
  | valueError
  /-- raised by Graphviz or by the decoder -/
  | other
  deriving DecidableEq, Repr

/-- An array as `plt.imread` returns it: its shape (rows, columns and, unless grey, the channels) and its contents. -/
structure Picture (P : Type) where
  shape : List ℕ
  pixels : P
  deriving DecidableEq

/-- Axes: the pictures shown on them, and whether frame and ticks are drawn. -/
structure Axes (P : Type) where
  pictures : List (Picture P)
  frame : Bool
  deriving DecidableEq

/-- A figure: its size in inches, its axes, and whether the margins were removed. -/
structure Figure where
  size : ℚ × ℚ
  axes : List ℕ
  tight : Bool
  deriving DecidableEq

/-- The objects of matplotlib. -/
structure World (P : Type) where
  axes : List (Axes P)
  figures : List Figure
  deriving DecidableEq

section
variable {G B P : Type}

/-- `display_plot_ipython`: `plots/display.py:52-72`.  `installed`: IPython is; `draw viz prog` is `viz.draw(format="png", prog=prog)`;
`Image(s)` is identified with its bytes. -/
def displayIpython (installed : Bool) (draw : G → Str → Except Err B) (viz : G) (prog : Str) : Except Err B :=
  if installed then draw viz prog else .error .importError

/-- `ax.imshow(array)`, `ax.axis("off")`: `plots/display.py:112-113`, `118-119`. -/
def showOn (w : World P) (ax : ℕ) (a : Picture P) : World P :=
  { w with axes := w.axes.modify ax fun x => ⟨x.pictures ++ [a], false⟩ }

/-- `plt.subplots(1, 1, figsize=size)`, which raises for a negative size: `plots/display.py:117`.  (Nothing is said here about
a size of zero, which matplotlib accepts at this point.) -/
def subplots (w : World P) (size : ℚ × ℚ) : Except Err (World P × ℕ × ℕ) :=
  if size.1 < 0 ∨ size.2 < 0 then .error .valueError
  else .ok (⟨w.axes ++ [⟨[], true⟩], w.figures ++ [⟨size, [w.axes.length], false⟩]⟩, w.figures.length, w.axes.length)

/-- `f.tight_layout(pad=0.0)`: `plots/display.py:120`. -/
def tighten (w : World P) (f : ℕ) : World P := { w with figures := w.figures.modify f fun x => { x with tight := true } }

/-- The arguments of one call. -/
structure Call (G : Type) where
  viz : G
  prog : Str
  ax : Option ℕ
  pixel : ℚ

/-- `display_plot_mpl`: `plots/display.py:75-121`; what it returns or raises, and the objects of matplotlib afterwards.
`installed`: matplotlib is; `imread s` is `plt.imread(io.BytesIO(s))`. -/
def displayMpl (installed : Bool) (draw : G → Str → Except Err B) (imread : B → Except Err (Picture P)) (w : World P) (c : Call G) :
    Except Err (Option ℕ × ℕ) × World P :=
  if installed then
    match draw c.viz c.prog with
    | .error e => (.error e, w)
    | .ok s =>
      match imread s with
      | .error e => (.error e, w)
      | .ok a =>
        match a.shape with
        | [x, y, _] =>
          match c.ax with
          | some ax => (.ok (none, ax), showOn w ax a)
          | none =>
            match subplots w (y * c.pixel, x * c.pixel) with
            | .error e => (.error e, w)
            | .ok (w, f, ax) => (.ok (some f, ax), tighten (showOn w ax a) f)
        | _ => (.error .valueError, w)
  else (.error .importError, w)

/-- Calls one after the other, with what each of them returns or raises. -/
def run (installed : Bool) (draw : G → Str → Except Err B) (imread : B → Except Err (Picture P)) (w : World P) :
    List (Call G) → List (Except Err (Option ℕ × ℕ)) × World P
  | [] => ([], w)
  | c :: l =>
    let r := displayMpl installed draw imread w c
    let rs := run installed draw imread r.2 l
    (r.1 :: rs.1, rs.2)

/-! ### Specification -/

/-- The picture of a graph: rendered and decoded, in colour, with `h` rows and `w` columns. -/
def Renders (draw : G → Str → Except Err B) (imread : B → Except Err (Picture P)) (viz : G) (prog : Str) (a : Picture P) (w h : ℕ) : Prop :=
  ∃ s, draw viz prog = .ok s ∧ imread s = .ok a ∧ ∃ c, a.shape = [h, w, c]

/-- Axes `ax` are the same as before, except that the picture is added and the frame is gone; all others are the same. -/
def Shown (before after : List (Axes P)) (ax : ℕ) (a : Picture P) : Prop :=
  (∃ x, before[ax]? = some x ∧ after[ax]? = some ⟨x.pictures ++ [a], false⟩) ∧ ∀ j, j ≠ ax → after[j]? = before[j]?

/-! ### Theorems -/

variable (installed : Bool) (draw : G → Str → Except Err B) (imread : B → Except Err (Picture P)) (w : World P)

/-- **C132**: on given axes, only these change; no figure is made or changed, and the axes are returned. -/
theorem displayMpl_given {viz : G} {prog : Str} {ax : ℕ} {pixel : ℚ} {a : Picture P} {wd ht : ℕ} (hr : Renders draw imread viz prog a wd ht)
    (hax : ax < w.axes.length) :
    ∃ w', displayMpl true draw imread w ⟨viz, prog, some ax, pixel⟩ = (.ok (none, ax), w') ∧ Shown w.axes w'.axes ax a ∧
      w'.axes.length = w.axes.length ∧ w'.figures = w.figures := by
  obtain ⟨s, hd, hi, c, hs⟩ := hr
  refine ⟨showOn w ax a, by simp [displayMpl, hd, hi, hs], ⟨⟨w.axes[ax], List.getElem?_eq_getElem hax, ?_⟩, fun j hj => ?_⟩, ?_, rfl⟩
  · simp [showOn, List.getElem?_eq_getElem hax]
  · simp [showOn, hj.symm]
  · simp [showOn]

omit installed draw imread w in
theorem modify_last {α : Type} (l : List α) (x : α) (f : α → α) : (l ++ [x]).modify l.length f = l ++ [f x] := by
  induction l with
  | nil => rfl
  | cons y l ih => simp only [List.cons_append, List.length_cons, List.modify_succ_cons, ih]

/-- **C132**: without axes, one new figure is made, whose size is that of the picture times `pixel_size_in`, with one new axes that shows only
the picture, without frame and margins; all figures and axes that existed stay the same. -/
theorem displayMpl_new {viz : G} {prog : Str} {pixel : ℚ} {a : Picture P} {wd ht : ℕ} (hr : Renders draw imread viz prog a wd ht) (hp : 0 ≤ pixel) :
    displayMpl true draw imread w ⟨viz, prog, none, pixel⟩ = (.ok (some w.figures.length, w.axes.length),
      ⟨w.axes ++ [⟨[a], false⟩], w.figures ++ [⟨(wd * pixel, ht * pixel), [w.axes.length], true⟩]⟩) := by
  obtain ⟨s, hd, hi, c, hs⟩ := hr
  have h1 : ¬ ((wd : ℚ) * pixel < 0 ∨ (ht : ℚ) * pixel < 0) := by
    push Not
    exact ⟨by positivity, by positivity⟩
  simp only [displayMpl, hd, hi, hs, subplots, if_neg h1, if_true, showOn, tighten]
  congr 2
  · exact modify_last _ _ _
  · exact modify_last _ _ _

/-- **C132**: whatever is raised, nothing has been made or changed. -/
theorem displayMpl_error {c : Call G} {e : Err} (h : (displayMpl installed draw imread w c).1 = .error e) :
    (displayMpl installed draw imread w c).2 = w := by
  revert h
  unfold displayMpl
  split
  · split
    · simp
    · split
      · simp
      · split
        · split
          · simp
          · split
            · simp
            · simp
        · simp
  · simp

/-- **C132**: when a call succeeds. -/
theorem displayMpl_ok_iff (c : Call G) : (∃ r, (displayMpl installed draw imread w c).1 = .ok r) ↔
    installed = true ∧ ∃ a wd ht, Renders draw imread c.viz c.prog a wd ht ∧
      (c.ax = none → 0 ≤ (wd : ℚ) * c.pixel ∧ 0 ≤ (ht : ℚ) * c.pixel) := by
  constructor
  · rintro ⟨r, h⟩
    revert h
    unfold displayMpl
    split
    · rename_i hin
      split
      · simp
      · rename_i s hs
        split
        · simp
        · rename_i a ha
          split
          · rename_i x y z hsh
            split
            · rename_i ax hax
              intro _
              exact ⟨hin, a, y, x, ⟨s, hs, ha, z, hsh⟩, by simp [hax]⟩
            · split
              · simp
              · rename_i hsub
                intro _
                refine ⟨hin, a, y, x, ⟨s, hs, ha, z, hsh⟩, fun _ => ?_⟩
                unfold subplots at hsub
                split at hsub
                · cases hsub
                · rename_i hneg
                  push Not at hneg
                  exact hneg
          · simp
    · simp
  · rintro ⟨rfl, a, wd, ht, ⟨s, hd, hi, z, hs⟩, hpx⟩
    cases hax : c.ax with
    | some ax => exact ⟨(none, ax), by simp [displayMpl, hd, hi, hs, hax]⟩
    | none =>
      have h1 : ¬ ((wd : ℚ) * c.pixel < 0 ∨ (ht : ℚ) * c.pixel < 0) := by
        push Not
        exact hpx hax
      exact ⟨(some w.figures.length, w.axes.length), by simp only [displayMpl, hd, hi, hs, hax, subplots, if_neg h1, if_true]⟩

/-- **C132**: what is raised if the library is missing (before anything is rendered), and for a grey picture, also if axes are given. -/
theorem displayMpl_raises (c : Call G) :
    displayMpl false draw imread w c = (.error .importError, w) ∧
      ∀ (s : B) (a : Picture P) (x y : ℕ), draw c.viz c.prog = .ok s → imread s = .ok a → a.shape = [x, y] →
        displayMpl true draw imread w c = (.error .valueError, w) := by
  refine ⟨rfl, fun s a x y h1 h2 h3 => ?_⟩
  simp [displayMpl, h1, h2, h3]

/-- **C132** for `display_plot_ipython`: the rendered picture, or `ImportError` exactly if IPython is missing. -/
theorem displayIpython_correct (viz : G) (prog : Str) :
    displayIpython true draw viz prog = draw viz prog ∧ displayIpython false draw viz prog = .error .importError := ⟨rfl, rfl⟩

end

/-! ### Sequences of calls -/

section
variable {G B P : Type} (installed : Bool) (draw : G → Str → Except Err B) (imread : B → Except Err (Picture P))

/-- The picture that a call shows on axes `ax`, if it succeeded and returned these. -/
def shownBy (c : Call G) (r : Except Err (Option ℕ × ℕ)) (ax : ℕ) : List (Picture P) :=
  match r with
  | .ok (_, ax') => if ax' = ax then
      match draw c.viz c.prog with
      | .ok s => (match imread s with | .ok a => [a] | .error _ => [])
      | .error _ => []
    else []
  | .error _ => []

/-- The call succeeded and made a figure. -/
def madeFigure (r : Except Err (Option ℕ × ℕ)) : Bool :=
  match r with
  | .ok (some _, _) => true
  | _ => false

/-- The given axes exist. -/
def Call.Known (w : World P) (c : Call G) : Prop := ∀ ax, c.ax = some ax → ax < w.axes.length

/-- The given axes exist when they are used: they existed before or were made by an earlier call. -/
def AllKnown (w : World P) : List (Call G) → Prop
  | [] => True
  | c :: l => c.Known w ∧ AllKnown (displayMpl installed draw imread w c).2 l

theorem displayMpl_step (w : World P) (c : Call G) (hc : c.Known w) :
    let r := displayMpl installed draw imread w c
    w.axes.length ≤ r.2.axes.length ∧
    r.2.figures.length = w.figures.length + (if madeFigure r.1 then 1 else 0) ∧
    (∀ f < w.figures.length, r.2.figures[f]? = w.figures[f]?) ∧
    (∀ f ax, r.1 = .ok (f, ax) → ax < r.2.axes.length) ∧
    ∀ ax < r.2.axes.length, (r.2.axes.getD ax ⟨[], true⟩).pictures =
      (w.axes.getD ax ⟨[], true⟩).pictures ++ shownBy draw imread c r.1 ax := by
  intro r
  rcases hr : r.1 with e | ⟨f, ax⟩
  · have h1 : r.2 = w := displayMpl_error installed draw imread w hr
    rw [h1]
    simp [madeFigure, shownBy]
  · obtain ⟨rfl, a, wd, ht, hren, hpx⟩ := (displayMpl_ok_iff installed draw imread w c).1 ⟨_, hr⟩
    have hsb : ∀ ax', shownBy draw imread c (.ok (f, ax)) ax' = if ax = ax' then [a] else [] := by
      intro ax'
      obtain ⟨s, hd, hi, -⟩ := hren
      simp [shownBy, hd, hi]
    obtain ⟨viz, prog, cax, pixel⟩ := c
    cases cax with
    | some ax₀ =>
      obtain ⟨w', h1, ⟨⟨x, hx, hx'⟩, hother⟩, hlen, hfig⟩ := displayMpl_given draw imread w (pixel := pixel) hren (hc _ rfl)
      have hrw : r = (.ok (none, ax₀), w') := h1
      rw [hrw] at hr ⊢
      cases hr
      refine ⟨hlen.ge, by simp [madeFigure, hfig], by simp [hfig], fun f ax' h => ?_, fun ax' hax => ?_⟩
      · cases h
        rw [hlen]
        exact hc _ rfl
      · rw [hsb]
        by_cases h : ax = ax'
        · subst h
          simp [List.getD_eq_getElem?_getD, hx, hx']
        · simp [List.getD_eq_getElem?_getD, hother ax' (Ne.symm h), h]
    | none =>
      have hp : 0 ≤ pixel ∨ (wd = 0 ∧ ht = 0) := by
        by_contra hcon
        push Not at hcon
        obtain ⟨hneg, hne⟩ := hcon
        obtain ⟨p1, p2⟩ := hpx rfl
        simp only at p1 p2
        have q : ∀ n : ℕ, 0 ≤ (n : ℚ) * pixel → n = 0 := by
          intro n hn
          by_contra h0
          have : 0 < (n : ℚ) := by exact_mod_cast Nat.pos_of_ne_zero h0
          nlinarith
        exact hne (q _ p1) (q _ p2)
      have h1 : displayMpl true draw imread w ⟨viz, prog, none, pixel⟩ = (.ok (some w.figures.length, w.axes.length),
          ⟨w.axes ++ [⟨[a], false⟩], w.figures ++ [⟨(wd * pixel, ht * pixel), [w.axes.length], true⟩]⟩) := by
        rcases hp with hp | ⟨rfl, rfl⟩
        · exact displayMpl_new draw imread w hren hp
        · have := displayMpl_new draw imread w hren (le_refl 0)
          obtain ⟨s, hd, hi, z, hs⟩ := hren
          simp only [displayMpl, hd, hi, hs, if_true] at this ⊢
          simpa using this
      have hrw : r = _ := h1
      rw [hrw] at hr ⊢
      cases hr
      refine ⟨by simp, by simp [madeFigure], fun f hf => by simp [List.getElem?_append_left hf], fun f ax h => ?_, fun ax hax => ?_⟩
      · cases h; simp
      · rw [hsb]
        simp only [List.length_append, List.length_singleton] at hax
        by_cases h : w.axes.length = ax
        · subst h
          simp [List.getD_eq_getElem?_getD]
        · simp [List.getD_eq_getElem?_getD, List.getElem?_append_left (show ax < w.axes.length by omega), h]

/-- **C132**, over sequences: after any calls, on axes that exist or without, with or without errors, every axes shows the pictures it had and
then exactly those of the successful calls that returned it, in order; there are as many new figures as successful calls without axes, and
the figures that existed are the same. -/
theorem run_correct (w : World P) (l : List (Call G)) (hl : AllKnown installed draw imread w l) :
    let r := run installed draw imread w l
    w.axes.length ≤ r.2.axes.length ∧ r.1.length = l.length ∧
    r.2.figures.length = w.figures.length + r.1.countP madeFigure ∧
    (∀ f < w.figures.length, r.2.figures[f]? = w.figures[f]?) ∧
    ∀ ax < r.2.axes.length, (r.2.axes.getD ax ⟨[], true⟩).pictures = (w.axes.getD ax ⟨[], true⟩).pictures ++
      (l.zip r.1).flatMap fun p => shownBy draw imread p.1 p.2 ax := by
  induction l generalizing w with
  | nil => simp [run]
  | cons c l ih =>
    obtain ⟨h1, h2, h3, h4, h5⟩ := displayMpl_step installed draw imread w c hl.1
    obtain ⟨i1, i2, i3, i4, i5⟩ := ih (displayMpl installed draw imread w c).2 hl.2
    refine ⟨h1.trans i1, by simp only [run, List.length_cons, i2], ?_, fun f hf => ?_, fun ax hax => ?_⟩
    · simp only [run, List.countP_cons]
      rw [i3, h2]
      omega
    · exact (i4 f (by omega)).trans (h3 f hf)
    · simp only [run, List.zip_cons_cons, List.flatMap_cons]
      rw [i5 ax hax]
      by_cases h : ax < (displayMpl installed draw imread w c).2.axes.length
      · rw [h5 ax h, List.append_assoc]
      · have hno : shownBy draw imread c (displayMpl installed draw imread w c).1 ax = [] := by
          rcases hr : (displayMpl installed draw imread w c).1 with e | ⟨f, ax'⟩
          · rfl
          · have := h4 f ax' hr
            have hne : ax' ≠ ax := by omega
            simp [shownBy, hne]
        have hd : ∀ (m : List (Axes P)), m.length ≤ ax → m.getD ax ⟨[], true⟩ = ⟨[], true⟩ := by
          intro m hm
          rw [List.getD_eq_getElem?_getD, List.getElem?_eq_none hm]
          rfl
        rw [hno, hd _ (by omega), hd _ (by omega)]
        simp

end

/-! ### A concrete case -/

/-- Graphs are numbers; graph 0 cannot be rendered, graph 1 is grey, all others are in colour. -/
def exDraw (viz : ℕ) (_ : Str) : Except Err ℕ := if viz = 0 then .error .other else .ok viz

def exRead (s : ℕ) : Except Err (Picture ℕ) := .ok ⟨if s = 1 then [3, 4] else [3, 4, 4], s⟩

def exWorld : World ℕ := ⟨[⟨[], true⟩, ⟨[⟨[1, 1, 3], 9⟩], true⟩], [⟨(5, 5), [0, 1], false⟩]⟩

def exCalls : List (Call ℕ) :=
  [⟨2, ['d', 'o', 't'], some 1, 1 / 100⟩, ⟨1, ['d', 'o', 't'], some 1, 1 / 100⟩, ⟨3, ['d', 'o', 't'], none, 1 / 100⟩,
    ⟨0, ['d', 'o', 't'], none, 1 / 100⟩, ⟨4, ['d', 'o', 't'], none, -1⟩, ⟨5, ['d', 'o', 't'], some 1, 1 / 100⟩, ⟨6, ['d', 'o', 't'], some 2, 1 / 100⟩]

example : Renders exDraw exRead 2 ['d', 'o', 't'] ⟨[3, 4, 4], 2⟩ 4 3 := ⟨2, rfl, rfl, 4, rfl⟩

example : AllKnown true exDraw exRead exWorld exCalls ∧ run true exDraw exRead exWorld exCalls =
    ([.ok (none, 1), .error .valueError, .ok (some 1, 2), .error .other, .error .valueError, .ok (none, 1), .ok (none, 2)],
      ⟨[⟨[], true⟩, ⟨[⟨[1, 1, 3], 9⟩, ⟨[3, 4, 4], 2⟩, ⟨[3, 4, 4], 5⟩], false⟩, ⟨[⟨[3, 4, 4], 3⟩, ⟨[3, 4, 4], 6⟩], false⟩],
        [⟨(5, 5), [0, 1], false⟩, ⟨(1 / 25, 3 / 100), [2], true⟩]⟩) := by
  constructor
  · norm_num [AllKnown, Call.Known, exCalls, displayMpl, exDraw, exRead, exWorld, showOn, subplots, tighten, List.modify]
    exact ⟨(fun _ h => nomatch h), (fun _ h => nomatch h)⟩
  · norm_num [run, exCalls, displayMpl, exDraw, exRead, exWorld, showOn, subplots, tighten, List.modify]

end Verif.Plots.Display
