import Verif.Model.Py
import Mathlib.Analysis.Calculus.Deriv.Add
import Mathlib.Data.Real.Basic

/-!
# Derivatives of models by automatic differentiation (`_torch_derivative`, `qadence/ml_tools/models.py:27-34`)

Inputs have the shape `(B, k)`. Automatic differentiation is trusted to be exact: `torch.autograd.grad(y, x, torch.ones_like(y))`
is the gradient of the sum of all entries of `y`, and, with `create_graph=True`, itself a function of `x`. A real function without
a derivative gets zero here, as `deriv` does. Indices are in range.
-/

namespace Qadence.TorchDeriv

/-- Inputs of the model. -/
abbrev Input (B k : ℕ) := Fin B → Fin k → ℝ

/-- The inputs with entry `(b, i)` replaced. -/
def setEntry {B k : ℕ} (x : Input B k) (b : Fin B) (i : Fin k) (t : ℝ) : Input B k :=
  Function.update x b (Function.update (x b) i t)

/-- `torch.autograd.grad(y, x, torch.ones_like(y), create_graph=True)[0]` (qadence/ml_tools/models.py:32). -/
noncomputable def autograd {B k : ℕ} {κ : Type} [Fintype κ] (y : Input B k → κ → ℝ) (x : Input B k) (b : Fin B) (i : Fin k) : ℝ :=
  deriv (fun t => ∑ j, y (setEntry x b i t) j) (x b i)

/-- The loop of `_torch_derivative` after its first pass, where `y` has one entry per row
(qadence/ml_tools/models.py:31-33). -/
noncomputable def loop {B k : ℕ} (y : Input B k → Fin B → ℝ) : List (Fin k) → Input B k → Fin B → ℝ
  | [] => y
  | i :: is => loop (fun x b => autograd y x b i) is

/-- `_torch_derivative` for at least one index and a model with outputs of the shape `(B, o)`
(qadence/ml_tools/models.py:27-34). -/
noncomputable def torchDerivative {B k o : ℕ} (ufa : Input B k → Fin B → Fin o → ℝ) (i : Fin k) (is : List (Fin k))
    (x : Input B k) : Fin B → ℝ :=
  loop (fun x b => autograd (fun x (j : Fin B × Fin o) => ufa x j.1 j.2) x b i) is x

/-- `derivative` (qadence/ml_tools/models.py:37-80) for a model differentiated by `_torch_derivative`; `o` is `out_features`. -/
noncomputable def derivative {B k o : ℕ} (ufa : Input B k → Fin B → Fin o → ℝ) (i : Fin k) (is : List (Fin k)) (x : Input B k) :
    Except PyErr (Fin B → ℝ) :=
  if o = 1 then .ok (torchDerivative ufa i is x) else .error .assertionError

end Qadence.TorchDeriv
