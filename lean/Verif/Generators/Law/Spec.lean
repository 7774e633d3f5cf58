import Verif.Generators.Law.Count
import Mathlib.Probability.Independence.Basic

/-!
# Specification of the law of generated data (C122)
-/

namespace Verif.Generators

open MeasureTheory ProbabilityTheory Verif.Mapper

section
variable {N : Type} [DecidableEq N] {n : ℕ} {Ω : Type} [MeasurableSpace Ω]

/-- Names of the random numbers drawn for the rows: one for every category of a categorical variable, three for a count. -/
inductive DrawIx (N : Type) (n : ℕ)
  | noise (v : N) (c : ℕ) (r : Fin n)
  | eta (v : N) (r : Fin n)
  | zif (v : N) (r : Fin n)
  | poisson (v : N) (r : Fin n)

/-- The scale of the noise. -/
def noiseScale (g : SemGraph N) (noiseStd : ℝ) (v : N) : ℝ := if g.preds v = [] then 1 else noiseStd

/-- The random number with this name, where `noise` is the distribution that the user chose for the noise. -/
def SemDraws.value (noise : String) (g : SemGraph N) (noiseStd : ℝ) (D : SemDraws N n) : DrawIx N n → ℝ
  | .noise v c r => D.noise noise (noiseScale g noiseStd v) v c r
  | .eta v r => D.eta v r
  | .zif v r => D.zif v r
  | .poisson v r => D.poisson v r

/-- Its distribution, where `L s` is that of the noise with scale `s`. -/
noncomputable def drawLaw (L : ℝ → Measure ℝ) (g : SemGraph N) (noiseStd : ℝ) : DrawIx N n → Measure ℝ
  | .noise v _ _ => L (noiseScale g noiseStd v)
  | _ => uniformLaw

/-- The random numbers for the rows are independent and have the distributions that `np.random` documents; those for the weights
and intercepts are the given ones of `D₀`. -/
structure RandomDraws (noise : String) (L : ℝ → Measure ℝ) (g : SemGraph N) (noiseStd : ℝ) (P : Measure Ω) (D₀ : SemDraws N n)
    (D : Ω → SemDraws N n) : Prop where
  weight : ∀ ω, (D ω).weight = D₀.weight
  mask : ∀ ω, (D ω).mask = D₀.mask
  intercept : ∀ ω, (D ω).intercept = D₀.intercept
  uniform : ∀ ω, (D ω).Uniform
  measurable : ∀ i, Measurable fun ω => (D ω).value noise g noiseStd i
  law : ∀ i, P.map (fun ω => (D ω).value noise g noiseStd i) = drawLaw L g noiseStd i
  indep : iIndepFun (fun i ω => (D ω).value noise g noiseStd i) P

/-- The probability of the values of the variable `v` in the row `r` of the table `T`, given the means of its features: for a
categorical variable the softmax of the means divided by the scale of the noise, for a count the zero-inflated Poisson
distribution (`countProb`). -/
noncomputable def cellProb (fmt : N → ℕ → N) (g : SemGraph N) (ty : N → VarType) (noiseStd p : ℝ) (mean T : N → Col n) (v : N)
    (r : Fin n) : ℝ :=
  match ty v with
  | .categorical k => ∑ i ∈ Finset.range k, if T (fmt v i) r = 1 then
      Real.exp (mean (fmt v i) r / noiseScale g noiseStd v) /
        ∑ c ∈ Finset.range k, Real.exp (mean (fmt v c) r / noiseScale g noiseStd v)
    else 0
  | .count => countProb p (g.preds v = []) (mean v r) ⌊T v r⌋₊
  | _ => 0

/-- The table consists of categorical variables and counts. -/
def Discrete (g : SemGraph N) (ty : N → VarType) : Prop := ∀ v ∈ g.nodes, ty v = .count ∨ ∃ k, ty v = .categorical k

end

end Verif.Generators
