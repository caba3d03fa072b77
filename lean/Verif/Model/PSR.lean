import Mathlib.LinearAlgebra.Matrix.NonsingularInverse
import Mathlib.Analysis.SpecialFunctions.Trigonometric.Basic
import Mathlib.Data.Finset.Sort
import Verif.Model.Py
import Verif.Model.Gate

/-!
# Parameter-shift rules (`qadence/backends/parameter_shift_rules.py`)

Floating point numbers are real numbers. An expectation function takes a dictionary of parameter values and returns
one number for every batch element and observable (index type `ι`); parameter tensors are shifted as a whole, so that
one batch element sees one number per parameter.
-/

namespace Qadence.PSR

open Real

/-- `param_dict`, as seen by one batch element. -/
abbrev Params := PyDict String ℝ

/-- Expectation functions; they can fail. -/
abbrev ExpFn (ι : Type) := Params → Except PyErr (ι → ℝ)

variable {ι : Type}

/-- `p = param_dict.copy(); p[name] = p[name] + s` (qadence/backends/parameter_shift_rules.py:92-93, 97-98, 157-158,
162-163). -/
def shifted (p : Params) (name : String) (s : ℝ) : Except PyErr Params :=
  match PyDict.get? p name with
  | some v => .ok (PyDict.set p name (v + s))
  | none => .error .keyError

/-- `f_plus - f_min` for one shift. -/
def difference (f : ExpFn ι) (p : Params) (name : String) (s : ℝ) : Except PyErr (ι → ℝ) := do
  let p₁ ← shifted p name s
  let a ← f p₁
  let p₂ ← shifted p name (-s)
  let b ← f p₂
  return fun i => a i - b i

/-- `single_gap_psr` (qadence/backends/parameter_shift_rules.py:67-102). -/
noncomputable def singleGapPsr (gap shift : ℝ) (f : ExpFn ι) (p : Params) (name : String) : Except PyErr (ι → ℝ) := do
  let d ← difference f p name shift
  return fun i => gap * d i / (4 * sin (gap * shift / 2))

/-- The matrix `M` (qadence/backends/parameter_shift_rules.py:151). -/
noncomputable def shiftMatrix {k : ℕ} (gaps shifts : Fin k → ℝ) : Matrix (Fin k) (Fin k) ℝ :=
  Matrix.of fun i j => 4 * sin (shifts i * gaps j / 2)

open Classical in
/-- `multi_gap_psr` (qadence/backends/parameter_shift_rules.py:105-181) for given shifts. Without gaps the variable
`f_plus` is not bound; `torch.linalg.solve` raises for a singular matrix. -/
noncomputable def multiGapPsr {k : ℕ} (gaps shifts : Fin k → ℝ) (f : ExpFn ι) (p : Params) (name : String) :
    Except PyErr (ι → ℝ) := do
  let F ← (List.finRange k).mapM (fun i => difference f p name (shifts i))
  if k = 0 then .error .unboundLocalError
  else if IsUnit (shiftMatrix gaps shifts).det then
    return fun x => ∑ j, gaps j * ((shiftMatrix gaps shifts)⁻¹.mulVec (fun i : Fin k => (F.getD i 0) x)) j
  else .error .runtimeError

/-- `torch.linspace(a, b, k)`. -/
noncomputable def linspace (a b : ℝ) (k : ℕ) (i : Fin k) : ℝ := a + (b - a) * i / (k - 1 : ℕ)

/-- The shifts for a given prefactor (qadence/backends/parameter_shift_rules.py:137). -/
noncomputable def manualShifts (prefac : ℝ) (k : ℕ) (i : Fin k) : ℝ :=
  prefac * linspace (π / 2 - π / 4) (π / 2 + π / 5) k i

/-- Rounding to the nearest integer, halves to even (`torch.round`). -/
noncomputable def rint (x : ℝ) : ℤ :=
  if Int.fract x < 1 / 2 then ⌊x⌋ else if 1 / 2 < Int.fract x then ⌊x⌋ + 1 else if Even ⌊x⌋ then ⌊x⌋ else ⌊x⌋ + 1

/-- `_round_complex` with four decimals (qadence/utils.py:245-252) on a real number. -/
noncomputable def round4 (x : ℝ) : ℝ := rint (x * 10 ^ 4) / 10 ^ 4

/-- The entries of `torch.tril(spectrum - spectrum.reshape(-1, 1))` below the diagonal
(qadence/backends/parameter_shift_rules.py:40-41). The diagonal and the upper part are zero. -/
def differences : List ℝ → List ℝ
  | [] => []
  | a :: l => l.map (fun b => a - b) ++ differences l

open Classical in
/-- `orig_unique_spectral_gaps` (qadence/backends/parameter_shift_rules.py:40-44): absolute values of the rounded
differences, sorted, without repetition and zero. -/
noncomputable def spectralGaps (spectrum : List ℝ) : List ℝ :=
  ((((differences spectrum).map (fun d => |round4 d|)).toFinset).sort (· ≤ ·)).filter (fun g => 0 < g)

/-- `torch.arange(0, n) * gap_step` with its first entry replaced
(qadence/backends/parameter_shift_rules.py:50-51). -/
noncomputable def pseudoGaps (n : ℕ) (gapStep : ℝ) : Except PyErr (List ℝ) :=
  if n = 0 then .error .indexError
  else .ok ((List.range n).map (fun k => if k = 0 then 0.001 else k * gapStep))

/-- Arguments of `general_psr` besides the spectrum (qadence/backends/parameter_shift_rules.py:14-21). -/
structure Options where
  nEqs : Option ℕ := none
  shiftPrefac : Option ℝ := some 0.5
  gapStep : ℝ := 1

/-- `general_psr` (qadence/backends/parameter_shift_rules.py:14-64), applied. `optimal gaps` are the shifts found by
`calculate_optimal_shifts`, which is not modelled. -/
noncomputable def generalPsr (optimal : (gaps : List ℝ) → Fin gaps.length → ℝ) (spectrum : List ℝ) (o : Options)
    (f : ExpFn ι) (p : Params) (name : String) : Except PyErr (ι → ℝ) := do
  let gaps ← match o.nEqs with
    | none => .ok (spectralGaps spectrum)
    | some n => pseudoGaps n o.gapStep
  if gaps.length = 1 then
    match o.shiftPrefac with
    | none => .error .typeError
    | some c => singleGapPsr (gaps.headD 0) (c * (π / 2)) f p name
  else
    match o.shiftPrefac with
    | none => multiGapPsr (fun i => gaps[i]) (optimal gaps) f p name
    | some c => multiGapPsr (fun i => gaps[i]) (manualShifts c gaps.length) f p name

/-- `eigenvalues_generator` of gates with a parameter (qadence/operations/parametric.py:51, 83, 115, 147, 182,
qadence/operations/control_ops.py:121, 164, 203, 246); other gates have no parameter to differentiate.
`n_qubits` of controlled rotations counts control and target qubits (qadence/blocks/primitive.py:460-461). -/
def gateSpectrum : Gate → List ℝ
  | .rot .PHASE _ _ => [0, 2]
  | .rot _ _ _ => [-1, 1]
  | .u _ _ _ _ => [-1, 1]
  | .control _ cs (.rot .PHASE _ _) => [-2, 0] ++ List.replicate (2 ^ (cs.length + 1) - 2) 0
  | .control _ cs (.rot _ _ _) => List.replicate (2 ^ (cs.length + 1) - 2) 0 ++ [1, -1]
  | _ => []

/-- The spectrum and the shift factor of a primitive block (qadence/blocks/utils.py:267-328 with
`rescale_eigenvals_timeevo=True`); `eigs` are the eigenvalues of the generator of an evolution, of which there are at
least two. -/
noncomputable def primSpectrum (eigs : Block Gate → List ℝ) : Prim → List ℝ × ℝ
  | .gate g _ => (gateSpectrum g, 1)
  | .hamEvo gen _ => ((eigs gen).map (fun e => e * 2), 0.5)

/-- The rule for a parameter of a primitive block (qadence/engines/torch/differentiable_expectation.py:222-248). -/
noncomputable def primRule (optimal : (gaps : List ℝ) → Fin gaps.length → ℝ) (eigs : Block Gate → List ℝ)
    (o : Options) (l : Prim) (f : ExpFn ι) (p : Params) (name : String) : Except PyErr (ι → ℝ) :=
  let s := primSpectrum eigs l
  if s.2 = 1 then generalPsr optimal s.1 o f p name
  else generalPsr optimal s.1 { o with shiftPrefac := o.shiftPrefac.map (fun c => s.2 * c) } f p name

end Qadence.PSR
