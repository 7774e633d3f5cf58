import Mathlib.Analysis.SpecialFunctions.Sigmoid
import Mathlib.Analysis.SpecialFunctions.Pow.Real
import Mathlib.Analysis.Calculus.Deriv.Basic
import Verif.Notears.Props
import Verif.Pytorch.Expand

/-!
# Model of the network of the PyTorch version: parameters, bounds, forward pass, adjacency (C61)

Real numbers instead of 32-bit floats (simplification). Tensors are flat row-major lists. `torch.autograd.grad` is the
derivative (external).
-/

namespace Verif.Pytorch

open Verif.Notears (Tabu Bound)

/-- Shape of the network. -/
structure Arch where
  d : ℕ
  hidden : List ℕ
  useBias : Bool
  clamp : ℝ

/-- `None` and `[]` become `[0]`: `structure/pytorch/notears.py:152-156`. -/
def hiddenUnits : Option (List ℕ) → List ℕ
  | none => [0]
  | some [] => [0]
  | some l => l

/-- `self.dims`: `structure/pytorch/core.py:98-102`. -/
def Arch.dims (a : Arch) : List ℕ := if a.hidden.headD 0 ≠ 0 then a.d :: (a.hidden ++ [1]) else [a.d, 1]

/-- `self.dims[1]`. -/
def Arch.m1 (a : Arch) : ℕ := a.dims.getD 1 1

/-- `zip(self.dims[1:-1], self.dims[2:])`: input and output sizes of the later layers: `structure/pytorch/core.py:113-118`. -/
def Arch.layerDims (a : Arch) : List (ℕ × ℕ) := (a.dims.tail.dropLast).zip (a.dims.tail.tail)

/-- Numbers of elements of the parameters in the order of `self.parameters()`: weights and bias of the first layer, weights and
bias of each later layer: `structure/pytorch/core.py:105-119`, `nonlinear.py:74-82`. -/
def Arch.sizes (a : Arch) : List ℕ :=
  (a.d * a.m1 * a.d) :: (if a.useBias then [a.d * a.m1] else []) ++
    a.layerDims.flatMap fun p => (a.d * p.1 * p.2) :: (if a.useBias then [a.d * p.2] else [])

/-- `hidden_layer_units[0] if hidden_layer_units[0] else 1`: `structure/pytorch/notears.py:159`. -/
def hiddenBnds (hidden : List ℕ) : ℕ := if hidden.headD 0 ≠ 0 then hidden.headD 0 else 1

/-- The bounds of the first layer: `structure/pytorch/notears.py:162-175`. -/
noncomputable def layerBounds (t : Tabu ℕ) (d m : ℕ) : List (Bound ℝ) :=
  (List.range d).flatMap fun j => (List.range m).flatMap fun _ => (List.range d).map fun i =>
    Notears.bound t (none, none) (i, j)

/-- `_get_flat_bounds`: only the weights of the first layer have bounds: `structure/pytorch/core.py:299-318`. -/
def flatBounds (a : Arch) (bnds : List (Bound ℝ)) : List (Bound ℝ) :=
  bnds ++ a.sizes.tail.flatMap fun n => List.replicate n (none, none)

/-- `_update_params_from_flat`: consecutive slices: `structure/pytorch/core.py:346-354`. -/
def slices : List ℕ → List ℝ → List (List ℝ)
  | [], _ => []
  | n :: ns, w => w.take n :: slices ns (w.drop n)

/-- A locally connected layer. -/
structure Layer where
  inF : ℕ
  outF : ℕ
  weight : List ℝ
  bias : Option (List ℝ)

/-- The parameters by their meaning. -/
structure Net where
  weight : List ℝ
  bias : Option (List ℝ)
  layers : List Layer

/-- The later layers from the list of parameters. -/
def readLayers (useBias : Bool) : List (ℕ × ℕ) → List (List ℝ) → List Layer
  | [], _ => []
  | p :: ps, ts =>
    if useBias then ⟨p.1, p.2, ts.headD [], some (ts.tail.headD [])⟩ :: readLayers useBias ps ts.tail.tail
    else ⟨p.1, p.2, ts.headD [], none⟩ :: readLayers useBias ps ts.tail

/-- The network with the flat parameters `w`. -/
def Arch.net (a : Arch) (w : List ℝ) : Net :=
  let ts := slices a.sizes w
  if a.useBias then ⟨ts.headD [], some (ts.tail.headD []), readLayers true a.layerDims ts.tail.tail⟩
  else ⟨ts.headD [], none, readLayers false a.layerDims ts.tail⟩

/-- An entry of an optional bias. -/
def biasAt (b : Option (List ℝ)) (k : ℕ) : ℝ := (b.map fun b => b.getD k 0).getD 0

/-- `nn.LayerNorm` over `m` values with initial (and never trained) affine part (torch, external). -/
noncomputable def layerNorm (m : ℕ) (eps : ℝ) (v : ℕ → ℝ) (k : ℕ) : ℝ :=
  let mean := (∑ a ∈ Finset.range m, v a) / m
  let var := (∑ a ∈ Finset.range m, (v a - mean) ^ 2) / m
  (v k - mean) / Real.sqrt (var + eps)

/-- One later layer for the feature `j`: `structure/pytorch/core.py:174-183`, `nonlinear.py:97-112`. -/
noncomputable def applyLayer (eps : ℝ) (j : ℕ) (l : Layer) (v : ℕ → ℝ) (b : ℕ) : ℝ :=
  (∑ a ∈ Finset.range l.inF, layerNorm l.inF eps (fun a => Real.sigmoid (v a)) a * l.weight.getD ((j * l.inF + a) * l.outF + b) 0)
    + biasAt l.bias (j * l.outF + b)

/-- The first layer for the feature `j` and hidden unit `h`: `nn.Linear` and `view`: `structure/pytorch/core.py:172-173`. -/
noncomputable def firstLayer (a : Arch) (n : Net) (x : ℕ → ℝ) (j h : ℕ) : ℝ :=
  (∑ i ∈ Finset.range a.d, x i * n.weight.getD ((j * a.m1 + h) * a.d + i) 0) + biasAt n.bias (j * a.m1 + h)

/-- `forward` for one row and the feature `j`: `structure/pytorch/core.py:162-185`. -/
noncomputable def forward (a : Arch) (n : Net) (x : ℕ → ℝ) (j : ℕ) : ℝ :=
  n.layers.foldl (fun v l => applyLayer a.clamp j l v) (firstLayer a n x j) 0

/-- The derivative of the reconstruction of feature `j` by feature `i` at the row `x`. -/
noncomputable def partialDeriv (a : Arch) (n : Net) (x : ℕ → ℝ) (i j : ℕ) : ℝ :=
  deriv (fun t => forward a n (Function.update x i t) j) (x i)

/-- `_calculate_adj(X, mean_effect=False)`: `structure/pytorch/core.py:486-524`. -/
noncomputable def adjacency (a : Arch) (n : Net) (rows : List (ℕ → ℝ)) (i j : ℕ) : ℝ :=
  if a.dims.length ≤ 2 then |n.weight.getD (j * a.d + i) 0|
  else (rows.map fun x => |partialDeriv a n x i j|).sum / rows.length

/-- `_calculate_adj(X, mean_effect=True)`: `structure/pytorch/core.py:486-524`. -/
noncomputable def meanEffect (a : Arch) (n : Net) (rows : List (ℕ → ℝ)) (i j : ℕ) : ℝ :=
  if a.dims.length ≤ 2 then n.weight.getD (j * a.d + i) 0
  else (rows.map fun x => partialDeriv a n x i j).sum / rows.length

/-- Building the layers divides by their input size: `nonlinear.py:91`. -/
def Arch.valid (a : Arch) : Bool := a.layerDims.all fun p => p.1 ≠ 0

end Verif.Pytorch
