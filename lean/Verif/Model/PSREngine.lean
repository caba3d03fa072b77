import Verif.Model.PSR

/-!
# The parameter-shift engine (`qadence/engines/torch/differentiable_expectation.py`)

Circuits are given to the backend with one name per gate parameter. In the model such a parameter is the expression
`.var u`; names of constants are left out (their values are in `param_values` as well and are never differentiated).
A tensor of shape (batch, observables) is a function on the index type `ι` of batch elements and observables.
-/

namespace Qadence.PSR

open Real

variable {ι : Type}

/-- The names of gate parameters belonging to an expression. -/
def exprUuids : Expr → List String
  | .var u => [u]
  | _ => []

/-- `block.parameters.uuids()` of primitive blocks (qadence/blocks/primitive.py:130-160, qadence/operations/parametric.py,
qadence/operations/control_ops.py); blocks without parameters have none. -/
def gateUuids : Gate → List String
  | .rot _ _ θ => exprUuids θ
  | .u _ φ θ ω => exprUuids φ ++ exprUuids θ ++ exprUuids ω
  | .control _ _ g => gateUuids g
  | _ => []

/-- The values of `uuid_to_block`: the block to which a parameter belongs. -/
inductive Src
  | gate (g : Gate)
  | evo (gen : Block Gate)
  | scale (b : Block Prim)
  | scaleGen (b : Block Gate)

/-- `for uuid in uuids: d[uuid] = block`. -/
def setAll (d : PyDict String Src) (us : List String) (s : Src) : PyDict String Src :=
  us.foldl (fun d u => PyDict.set d u s) d

mutual
/-- `uuid_to_block` (qadence/blocks/utils.py:215-248) for given treatment of primitive blocks. -/
def collect {L : Type} (leaf : L → PyDict String Src → PyDict String Src) (sc : Block L → Src) :
    Block L → PyDict String Src → PyDict String Src
  | .leaf l _, d => leaf l d
  | .scale b s _, d => collect leaf sc b (setAll d (exprUuids s) (sc b))
  | .comp _ bs _, d => collectList leaf sc bs d
/-- `for b in block.blocks: d = uuid_to_block(b, d)`. -/
def collectList {L : Type} (leaf : L → PyDict String Src → PyDict String Src) (sc : Block L → Src) :
    List (Block L) → PyDict String Src → PyDict String Src
  | [], d => d
  | b :: bs, d => collectList leaf sc bs (collect leaf sc b d)
end

/-- `uuid_to_block` of gates (qadence/blocks/utils.py:236-243). -/
def gateLeaf (g : Gate) (d : PyDict String Src) : PyDict String Src := setAll d (gateUuids g) (.gate g)

/-- `uuid_to_block` of primitive blocks; the parameters of the generator come before the one of the evolution
(qadence/blocks/utils.py:236-243). -/
def primLeaf : Prim → PyDict String Src → PyDict String Src
  | .gate g _, d => gateLeaf g d
  | .hamEvo gen t, d => setAll (collect gateLeaf .scaleGen gen d) (exprUuids t) (.evo gen)

/-- `uuid_to_block` of circuits. -/
def uuidToBlock (b : Block Prim) : PyDict String Src := collect primLeaf .scale b []

/-- `uuid_to_block` of observables. -/
def uuidToBlockObs (b : Block Gate) : PyDict String Src := collect gateLeaf .scaleGen b []

/-- Numerically computed spectra: of the generators of evolutions (`eigenvalues(block_to_tensor(generator))`) and of
the logarithms of matrices. -/
structure Eigs where
  evo : Block Gate → List ℝ
  mat : List (List Expr) → List ℝ

/-- `eigenvalues_generator` of operations without parameters (qadence/operations/primitive.py:43, 64, 85, 120, 172, 194,
219, 244, 260, 306, 336). -/
def fixedSpectrum : FixedGate → Except PyErr (List ℝ)
  | .I => .ok [1, 1]
  | .X => .ok [-1, 1]
  | .Y => .ok [-1, 1]
  | .Z => .ok [-1, 1]
  | .H => .ok [-2, 0]
  | .S => .ok [0, 1]
  | .SDagger => .ok [0, 1]
  | .T => .ok [0, 1]
  | .TDagger => .ok [0, 1]
  | .Zero => .ok [0, 0]
  | .N _ => .error .valueError

/-- `eigenvalues_generator` of primitive blocks (also qadence/operations/primitive.py:150, 372,
qadence/operations/control_ops.py:44, 74, 316, 342, qadence/blocks/matrix.py:94); `MCZ` joins a tensor without dimension,
which fails. -/
def gateEig (e : Eigs) : Gate → Except PyErr (List ℝ)
  | .fixed g _ => fixedSpectrum g
  | .swap _ _ => .ok [-2, 0, 0, 0]
  | .proj _ _ _ => .error .valueError
  | .matrix rows _ => .ok (e.mat rows)
  | .control .MCZ _ (.fixed _ _) => .error .runtimeError
  | .control _ cs (.fixed _ _) => .ok (-2 :: List.replicate (2 ^ (cs.length + 1) - 1) 0)
  | .control _ _ (.swap _ _) => .ok [1, -1, 1, 1, 1, 1, 1, 1]
  | g => .ok (gateSpectrum g)

/-- `eigenvalues_generator` of blocks: scale blocks have the one of the scaled block, composite blocks an empty tensor
(qadence/blocks/primitive.py:261-263, qadence/blocks/composite.py:39-41). -/
def blockEig {L : Type} (leaf : L → Except PyErr (List ℝ)) : Block L → Except PyErr (List ℝ)
  | .leaf l _ => leaf l
  | .scale b _ _ => blockEig leaf b
  | .comp _ _ _ => .ok []

/-- `eigenvalues_generator` of primitive blocks in circuits (qadence/operations/ham_evo.py:176-186). -/
def primEig (e : Eigs) : Prim → Except PyErr (List ℝ)
  | .gate g _ => gateEig e g
  | .hamEvo gen _ => .ok (e.evo gen)

/-- `b.eigenvalues_generator` for the blocks of `uuid_to_block`. -/
def srcEig (e : Eigs) : Src → Except PyErr (List ℝ)
  | .gate g => gateEig e g
  | .evo gen => .ok (e.evo gen)
  | .scale b => blockEig (primEig e) b
  | .scaleGen b => blockEig (gateEig e) b

/-- The factor for evolutions (qadence/blocks/utils.py:308-322). -/
noncomputable def evoFactor : List ℝ → ℝ
  | [a] => 1 / (a * 2)
  | _ => 0.5

/-- One step of the loop of `uuid_to_eigen` (qadence/blocks/utils.py:295-329); `none` if there is no entry. -/
noncomputable def eigenEntry (e : Eigs) (rescale : Bool) (s : Src) : Except PyErr (Option (List ℝ × ℝ)) :=
  match srcEig e s with
  | .error .valueError => .ok (some ([0, 0], 1))
  | .error err => .error err
  | .ok [] => .ok none
  | .ok l => match s, rescale with
    | .evo _, true => .ok (some (l.map (fun x => x * 2), evoFactor l))
    | _, _ => .ok (some (l, 1))

/-- `uuid_to_eigen` (qadence/blocks/utils.py:267-331) without analog blocks. -/
noncomputable def uuidToEigen (e : Eigs) (rescale : Bool) :
    PyDict String Src → Except PyErr (PyDict String (List ℝ × ℝ))
  | [] => .ok []
  | (u, s) :: d => do
    let r ← eigenEntry e rescale s
    let rest ← uuidToEigen e rescale d
    return match r with
      | none => rest
      | some v => (u, v) :: rest

/-- Keyword arguments of the engine (`psr_args`, qadence/engines/torch/differentiable_backend.py:33-40); an argument
which is not given is `none`. -/
structure PsrArgs where
  nEqs : Option (Option ℕ) := none
  shiftPrefac : Option (Option ℝ) := none
  gapStep : Option ℝ := none

/-- The arguments which reach `general_psr` (qadence/backends/parameter_shift_rules.py:14-21). -/
noncomputable def PsrArgs.options (a : PsrArgs) : Options where
  nEqs := a.nEqs.getD none
  shiftPrefac := a.shiftPrefac.getD (some 0.5)
  gapStep := a.gapStep.getD 1

/-- The arguments from the backend configuration (qadence/backends/api.py:52-60, qadence/backends/pyqtorch/config.py:74-80). -/
noncomputable def PsrArgs.ofConfig : PsrArgs where
  nEqs := some none
  shiftPrefac := some (some 0.5)
  gapStep := some 1

/-- `psr_args_factor` (qadence/engines/torch/differentiable_expectation.py:234-245). -/
noncomputable def PsrArgs.scaled (a : PsrArgs) (factor : ℝ) : PsrArgs :=
  if factor = 1 then a
  else match a.shiftPrefac with
    | some (some c) => { a with shiftPrefac := some (some (factor * c)) }
    | some none => a
    | none => { a with shiftPrefac := some (some factor) }

/-- The values of `param_to_psr`: a rule for a spectrum or the function `lambda x: torch.tensor([0.0])`. -/
inductive RuleFn
  | psr (spectrum : List ℝ) (args : PsrArgs)
  | zero

/-- `construct_rules` (qadence/engines/torch/differentiable_expectation.py:213-253) with `general_psr`. -/
noncomputable def constructRules (e : Eigs) (a : PsrArgs) (circuit : Block Prim) (obs : List (Block Gate)) :
    Except PyErr (PyDict String RuleFn) := do
  let r ← uuidToEigen e true (uuidToBlock circuit)
  let os ← obs.mapM (fun o => uuidToEigen e false (uuidToBlockObs o))
  return (os.flatMap PyDict.keys).foldl (fun d u => PyDict.set d u .zero)
    (r.map (fun x => (x.1, RuleFn.psr x.2.1 (a.scaled x.2.2))))

/-- `psr(expectation_fn, params, name)`: the functions for parameters of observables take one argument only. -/
noncomputable def callRule (optimal : (gaps : List ℝ) → Fin gaps.length → ℝ) (r : RuleFn) (f : ExpFn ι) (p : Params)
    (name : String) : Except PyErr (ι → ℝ) :=
  match r with
  | .psr l a => generalPsr optimal l a.options f p name
  | .zero => .error .typeError

/-- An item of the dictionary of values. -/
def item (p : Params) (k : String) : Except PyErr (String × ℝ) :=
  match PyDict.get? p k with
  | some v => .ok (k, v)
  | none => .error .keyError

/-- `{k: self.param_values[k] for k in param_to_psr.keys()}` (qadence/engines/torch/differentiable_expectation.py:207). -/
def restrict (p : Params) (keys : List String) : Except PyErr Params := keys.mapM (item p)

/-- `PSRExpectation.forward` behind `psr` (qadence/engines/torch/differentiable_expectation.py:30-59, 207-209). -/
def psrForward (rules : PyDict String RuleFn) (f : ExpFn ι) (p : Params) : Except PyErr (ι → ℝ) := do
  f (← restrict p (PyDict.keys rules))

/-- `PSRExpectation.backward` (qadence/engines/torch/differentiable_expectation.py:61-87): `w` is `grad_out`, `p` the
saved values. The sum runs over all observables; the sum over batch elements for a value shared by the batch is done by
torch. -/
noncomputable def psrBackward [Fintype ι] (optimal : (gaps : List ℝ) → Fin gaps.length → ℝ)
    (rules : PyDict String RuleFn) (f : ExpFn ι) (p : Params) (needs : String → Bool) (w : ι → ℝ) :
    Except PyErr (PyDict String (Option ℝ)) :=
  rules.mapM (fun x =>
    if needs x.1 then do
      let d ← callRule optimal x.2 f p x.1
      return (x.1, some (∑ i, w i * d i))
    else return (x.1, none))

/-! ### The three ways to compute expectation values -/

/-- `ad` with a state vector backend (qadence/engines/torch/differentiable_expectation.py:104-132): rows are batch
elements, columns are observables. -/
def adValues (batch : ℕ) (vals : List (ℕ → ℝ)) : List (List ℝ) :=
  (List.range batch).map (fun b => vals.map (fun v => v b))

/-- `adjoint` (qadence/engines/torch/differentiable_expectation.py:134-165): one column per observable, stacked
vertically. -/
def adjointValues (batch : ℕ) (vals : List (ℕ → ℝ)) : List (List ℝ) :=
  vals.flatMap (fun v => (List.range batch).map (fun b => [v b]))

end Qadence.PSR
