import Verif.Pytorch.Collapse
import Verif.Pytorch.LinkProps
import Verif.Pytorch.Fit
import Mathlib.Data.Real.Sign

/-!
# Model of the losses and the objective of the PyTorch version (C79)

`x` is a row of the preprocessed data, `y` the reconstruction of the row by the network. torch's loss functions are modelled by the
formulas of their documentation (external). Real numbers instead of 32-bit floats (simplification).
-/

namespace Verif.Pytorch

open Verif.Notears (Problem)

/-- `torch.argmax`: the first position of the largest value. -/
noncomputable def argmax : List ℝ → ℕ
  | [] => 0
  | a :: l => if ∀ b ∈ l, b ≤ a then 0 else argmax l + 1

/-- The loss of one row: `dist_type/continuous.py:41-56`, `binary.py:42-62` (binary cross entropy with logits), `poisson.py:64-84`
(Poisson loss with `log_input`, without the factorial), `categorical.py:224-247` (cross entropy), `ordinal.py:124-146`. -/
noncomputable def Enc.rowLoss (e : Enc) (x y : ℕ → ℝ) : ℝ :=
  match e with
  | .cont i => 1 / 2 * (y i - x i) ^ 2
  | .bin i => -(x i * Real.log (Real.sigmoid (y i)) + (1 - x i) * Real.log (1 - Real.sigmoid (y i)))
  | .poiss i => Real.exp (y i) - x i * y i
  | .cat _ group _ =>
    -(group.map y).getD (argmax (group.map x)) 0 + Real.log ((group.map y).map Real.exp).sum
  | .ord i _ counts => -Real.log (((ordProbs (logCumOdds counts) (y i)).getD []).getD ⌊x i⌋₊ 0)

/-- The loss of a type: the mean over the rows. -/
noncomputable def Enc.loss (e : Enc) (rows : List (ℕ → ℝ)) (net : (ℕ → ℝ) → ℕ → ℝ) : ℝ :=
  (rows.map fun x => e.rowLoss x (net x)).sum / rows.length

/-- `_l1_reg`: `structure/pytorch/core.py:455-464`. -/
noncomputable def l1Reg (a : Arch) (n : Net) : ℝ := (n.weight.map fun x => |x|).sum / n.weight.length * a.d

/-- `_l2_reg`: `structure/pytorch/core.py:466-484`. -/
noncomputable def l2Reg (a : Arch) (n : Net) : ℝ :=
  let ws := n.weight ++ n.layers.flatMap Layer.weight
  (ws.map fun x => x ^ 2).sum / ws.length * a.d

/-- The objective `primal_obj` of `_func` for finite `alpha`: `structure/pytorch/core.py:356-384`. -/
noncomputable def primal (a : Arch) (es : List Enc) (rows : List (ℕ → ℝ)) (lasso ridge rho alpha : ℝ) (w : List ℝ) : ℝ :=
  let n := a.net w
  let h := hFunc a es n
  (es.map fun e => e.loss rows (forward a n)).sum + (1 / 2 * rho * h * h + alpha * h) + 1 / 2 * ridge * l2Reg a n + lasso * l1Reg a n

/-- What is optimised: the objective, its partial derivatives (`backward`, external; the derivative of the absolute value is taken to be
the sign, 0 at 0), and the acyclicity score: `structure/pytorch/core.py:356-410`. -/
noncomputable def torchProblem (a : Arch) (es : List Enc) (rows : List (ℕ → ℝ)) (lasso ridge : ℝ) : Problem ℝ where
  func rho alpha w := alpha.map fun alpha => primal a es rows lasso ridge rho alpha w
  grad rho alpha w := (List.range w.length).map fun k =>
    deriv (fun t => primal a es rows 0 ridge rho (alpha.untopD 0) (w.set k t)) (w.getD k 0) +
      lasso * (if k < a.d * a.m1 * a.d then Real.sign (w.getD k 0) / (a.d * a.m1 * a.d : ℕ) * a.d else 0)
  score w := (hFunc a es (a.net w) : ℝ)

/-! ### The losses are negative log likelihoods -/

/-- Specification: the likelihood of the original value `v` of a variable under the distribution its link function reports for the
latent values `lat` (one for each of its columns): a normal density with unit variance, a Bernoulli probability, a Poisson
probability, the reported probability of the class. -/
noncomputable def Enc.likelihood (e : Enc) (v : ℚ) (lat : List ℝ) : ℝ :=
  match e with
  | .cont _ => Real.exp (-((v : ℝ) - lat.getD 0 0) ^ 2 / 2) / Real.sqrt (2 * Real.pi)
  | .bin _ => let p := 1 / (1 + Real.exp (-lat.getD 0 0)); if v = 1 then p else 1 - p
  | .poiss _ => let rate := Real.exp (lat.getD 0 0); Real.exp (-rate) * rate ^ ⌊v⌋₊ / (⌊v⌋₊).factorial
  | .cat _ _ cats => (lat.map fun a => Real.exp a / (lat.map Real.exp).sum).getD (cats.idxOf v) 0
  | .ord _ cats counts => ((ordProbs (logCumOdds counts) (lat.getD 0 0)).getD []).getD (cats.idxOf v) 0

/-- Specification: the part of the negative log likelihood that does not depend on the network and is left out of the loss. -/
noncomputable def Enc.constant (e : Enc) (v : ℚ) : ℝ :=
  match e with
  | .cont _ => Real.log (Real.sqrt (2 * Real.pi))
  | .poiss _ => Real.log (⌊v⌋₊).factorial
  | _ => 0

/-- Specification: the values a type is made for. -/
def Enc.Suits (e : Enc) (v : ℚ) : Prop :=
  match e with
  | .cont _ => True
  | .bin _ => v = 0 ∨ v = 1
  | .poiss _ => ∃ n : ℕ, v = n
  | .cat _ _ cats => v ∈ cats
  | .ord _ cats _ => v ∈ cats

end Verif.Pytorch
