import Mathlib.Analysis.SpecialFunctions.Log.Base
import Mathlib.Analysis.SpecialFunctions.Sqrt
import Verif.Model.Py

/-!
# Information content of loss landscapes (`qadence/ml_tools/information/information_content.py`)

Floating point numbers are real numbers. The loss of a set of parameters and the inverse of the normal distribution are
arguments. A walk is the list of rows of `all_variations`.
-/

namespace Qadence.Info

/-- `torch.prod(torch.tensor(shape)).item()` (information_content.py:140). For the empty shape the tensor is one of floats, and the
float `1.0` cannot be used in the slice of line 142. -/
def paramSize : List ℕ → Except PyErr ℕ
  | [] => .error .typeError
  | s => .ok (s.foldr (· * ·) 1)

/-- `total_params` (information_content.py:120-124). -/
def totalParams (shapes : PyDict String (List ℕ)) : ℕ := (shapes.map fun s => s.2.foldr (· * ·) 1).sum

/-- `n_variations` (information_content.py:125). -/
def nVariations (multiple : ℕ) (shapes : PyDict String (List ℕ)) : ℕ := multiple * totalParams shapes

/-- The loop of `reshape_param_variations` (information_content.py:139-144), for one row of `all_variations`. -/
def reshapeRow (row : List ℝ) : ℕ → PyDict String (List ℕ) → Except PyErr (PyDict String (List ℕ × List ℝ))
  | _, [] => .ok []
  | start, (name, shape) :: rest => do
    let size ← paramSize shape
    let others ← reshapeRow row (start + size) rest
    return (name, (shape, (row.drop start).take size)) :: others

/-- `reshape_param_variations` and `batched_loss` (information_content.py:130-161): the loss of every row. -/
def batchedLoss (shapes : PyDict String (List ℕ)) (loss : PyDict String (List ℕ × List ℝ) → ℝ) (rows : List (List ℝ)) :
    Except PyErr (List ℝ) := do
  let params ← rows.mapM (fun row => reshapeRow row 0 shapes)
  return params.map loss

/-- `torch.norm(a - b)` of two rows (information_content.py:176). -/
noncomputable def rowDist (a b : List ℝ) : ℝ := Real.sqrt ((List.zipWith (fun x y => (x - y) ^ 2) a b).sum)

/-- `randomized_finite_der` (information_content.py:163-177): `xs[1:]` is `xs.tail`, `xs[:-1]` is `xs.dropLast`. -/
noncomputable def finiteDer (losses : List ℝ) (rows : List (List ℝ)) : List ℝ :=
  List.zipWith (· / ·) (List.zipWith (· - ·) losses.tail losses.dropLast)
    ((List.zipWith rowDist rows.tail rows.dropLast).map (· + (1e-8 : ℝ)))

open Classical in
/-- One entry of `discretize_derivatives` (information_content.py:192-194): the two assignments one after the other. -/
noncomputable def discretize (eps d : ℝ) : ℤ :=
  let v : ℤ := 0
  let v := if d > eps then 1 else v
  let v := if d < -eps then -1 else v
  v

/-- `((current == a) & (next_val == b)).sum(dim=1)` (information_content.py:208-218). -/
def countTransitions (ds : List ℤ) (a b : ℤ) : ℕ := (ds.dropLast.zip ds.tail).countP fun p => p.1 = a && p.2 = b

/-- `calculate_transition_probabilities_batch` for one threshold (information_content.py:198-226). All entries are nan if there
is no transition; this is `none`. -/
noncomputable def probabilities (ds : List ℤ) : Option (List ℝ) :=
  let transitions : List ℕ := [countTransitions ds 1 0, countTransitions ds 1 (-1), countTransitions ds 0 1,
    countTransitions ds 0 (-1), countTransitions ds (-1) 0, countTransitions ds (-1) 1]
  let total := ds.dropLast.length
  if total = 0 then none else some (transitions.map fun (t : ℕ) => (t : ℝ) / (total : ℝ))

open Classical in
/-- `calculate_IC` for one threshold (information_content.py:228-242). Comparisons with nan are false. -/
noncomputable def icOf : Option (List ℝ) → ℝ
  | none => 0 / Real.log 6
  | some probs => (probs.map fun p => if p > 1e-4 then -p * Real.log p else 0).sum / Real.log 6

/-- `calculate_IC` (information_content.py:179-242) from the finite derivatives. -/
noncomputable def calculateIC (ders : List ℝ) (epsilons : List ℝ) : List ℝ :=
  epsilons.map fun eps => icOf (probabilities (ders.map (discretize eps)))

open Classical in
/-- Index of the largest element of `x :: xs`; the first one of several. -/
noncomputable def argmaxAux (best : ℝ × ℕ) : ℕ → List ℝ → ℝ × ℕ
  | _, [] => best
  | i, x :: xs => argmaxAux (if best.1 < x then (x, i) else best) (i + 1) xs

/-- `max_IC` (information_content.py:244-252). -/
noncomputable def maxIC (ders epsilons : List ℝ) : Except PyErr (ℝ × ℝ) :=
  match calculateIC ders epsilons with
  | [] => .error .indexError
  | x :: xs =>
    let r := argmaxAux (x, 0) 1 xs
    .ok (r.1, epsilons.getD r.2 0)

/-- `min` of a tensor with one dimension; an empty tensor raises a RuntimeError. -/
noncomputable def tensorMin : List ℝ → Except PyErr ℝ
  | [] => .error .runtimeError
  | x :: xs => .ok (xs.foldl min x)

open Classical in
/-- `sensitivity_IC` (information_content.py:254-266). -/
noncomputable def sensitivityIC (ders epsilons : List ℝ) (eta : ℝ) : Except PyErr ℝ :=
  tensorMin (((epsilons.zip (calculateIC ders epsilons)).filter fun p => p.2 < eta).map Prod.fst)

/-- `torch.linspace(0.001, 0.16667, 10000)` (information_content.py:289). -/
noncomputable def gridPoint (i : ℕ) : ℝ := 0.001 + i * ((0.16667 - 0.001) / 9999)

/-- `H` at a point (information_content.py:291-293). -/
noncomputable def hFun (x : ℝ) : ℝ :=
  -4 * x * Real.log x / Real.log 6 - 2 * (0.5 - 2 * x) * Real.log (0.5 - 2 * x) / Real.log 6

open Classical in
/-- Index of the smallest value of `err` among the first `k + 1` indices; the first one of several. -/
noncomputable def argminUpTo (err : ℕ → ℝ) : ℕ → ℕ
  | 0 => 0
  | k + 1 => if err (k + 1) < err (argminUpTo err k) then k + 1 else argminUpTo err k

/-- `q_value` (information_content.py:268-296). -/
noncomputable def qValue (H : ℝ) : ℝ := gridPoint (argminUpTo (fun i => |hFun (gridPoint i) - H|) 9999)

open Classical in
/-- `x / NormalDist().inv_cdf(p)`: `inv_cdf` raises a StatisticsError (a ValueError) outside of (0, 1). -/
noncomputable def divInvCdf (inv : ℝ → ℝ) (x p : ℝ) : Except PyErr ℝ :=
  if p ≤ 0 ∨ 1 ≤ p then .error .valueError
  else if inv p = 0 then .error .zeroDivisionError
  else .ok (x / inv p)

/-- `get_grad_norm_bounds_max_IC` (information_content.py:298-323); the warning is not modelled. -/
noncomputable def boundsMaxIC (inv : ℝ → ℝ) (params : ℕ) (ders epsilons : List ℝ) : Except PyErr (ℝ × ℝ) := do
  let (maxIC, eps) ← maxIC ders epsilons
  let lower ← divInvCdf inv (eps * Real.sqrt params) (1 - 2 * qValue maxIC)
  let upper ← divInvCdf inv (eps * Real.sqrt params) (0.5 * (1 + 2 * qValue maxIC))
  return (lower, upper)

/-- `get_grad_norm_bounds_sensitivity_IC` (information_content.py:325-339). -/
noncomputable def boundSensitivity (inv : ℝ → ℝ) (params : ℕ) (ders epsilons : List ℝ) (eta : ℝ) : Except PyErr ℝ := do
  let eps ← sensitivityIC ders epsilons eta
  divInvCdf inv (eps * Real.sqrt params) (1 - 3 * eta / 2)

end Qadence.Info
