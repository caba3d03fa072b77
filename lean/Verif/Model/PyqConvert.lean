import Verif.Model.Gate
import Verif.Model.Embedding
import Verif.Model.Passes

/-!
# Conversion of blocks to PyQTorch operations (`qadence/backends/pyqtorch/convert_ops.py`)

PyQTorch itself is not modelled: `Native` lists the calls of its constructors, what the operations do is stated in `Verif/Spec/Pyq.lean`.
Evolutions with time-dependent generators or with noise operators, generators given as tensors or expressions, and quantum dropout are not
modelled. Numbers are exact; the code rounds complex constants to single precision (convert_ops.py:91).
-/

namespace Qadence.Pyq

/-- `ConcretizedCallable` with one or two arguments (expressions of the model have at most two arguments). -/
inductive Callable
  | tensor (e : Expr)
  | key (s : String)
  | call1 (f : String) (a : Callable)
  | call2 (f : String) (a b : Callable)
  deriving DecidableEq, Repr

/-- `SYMPY_TO_PYQ_MAPPING` for functions of one argument (qadence/backends/pyqtorch/convert_ops.py:46-61). -/
def fnName : String → Option String
  | "cos" => some "cos"
  | "sin" => some "sin"
  | "log" => some "log"
  | "tan" => some "tan"
  | "tanh" => some "tanh"
  | "Heaviside" => some "hs"
  | "Abs" => some "abs"
  | "exp" => some "exp"
  | "acos" => some "acos"
  | "asin" => some "asin"
  | "atan" => some "atan"
  | _ => none

/-- `sympy_to_pyq` (qadence/backends/pyqtorch/convert_ops.py:131-171). `float` of the imaginary unit raises, so that its name `"I"` is taken
for the name of a parameter (lines 143-150). Complex conjugation and functions missing in the mapping raise a KeyError. -/
def sympyToPyq : Expr → Except PyErr Callable
  | .num re im =>
    if im = 0 then .ok (.tensor (.num re 0))
    else .ok (.call2 "add" (.tensor (.num re 0)) (.call2 "mul" (.tensor (.num im 0)) (.key "I")))
  | .pi => .ok (.tensor .pi)
  | .var x => .ok (.key x)
  | .add a b => do return .call2 "add" (← sympyToPyq a) (← sympyToPyq b)
  | .mul a b => do return .call2 "mul" (← sympyToPyq a) (← sympyToPyq b)
  | .pow e k => do return .call2 "pow" (← sympyToPyq e) (.tensor (.num k 0))
  | .inv e => do return .call2 "pow" (← sympyToPyq e) (.tensor (.num (-1) 0))
  | .conj _ => .error .keyError
  | .fn f e => do
    let a ← sympyToPyq e
    match fnName f with
    | none => .error .keyError
    | some g => return .call1 g a

/-- `sympy.parse_expr(str(e))` for an expression with parameters: the same expression, except for parameters named like something in
sympy's namespace. Of the constants only `pi` is modelled; a name of a function (`isFunction`, e.g. `beta` or `gamma`) becomes a class, on
which `sympy_to_pyq` raises a TypeError. -/
def reread (isFunction : String → Bool) : Expr → Except PyErr Expr
  | .num re im => .ok (.num re im)
  | .pi => .ok .pi
  | .var x => if isFunction x then .error .typeError else if x = "pi" then .ok .pi else .ok (.var x)
  | .add a b => do return .add (← reread isFunction a) (← reread isFunction b)
  | .mul a b => do return .mul (← reread isFunction a) (← reread isFunction b)
  | .pow e k => do return .pow (← reread isFunction e) k
  | .inv e => do return .inv (← reread isFunction e)
  | .conj e => do return .conj (← reread isFunction e)
  | .fn f e => do return .fn f (← reread isFunction e)

/-- Parameters of native operations. -/
inductive NParam
  /-- a tensor with the value of a constant -/
  | const (e : Expr)
  /-- the unique id of the gate parameter with this expression -/
  | uuid (e : Expr)
  /-- a name -/
  | key (s : String)
  | callable (c : Callable)
  deriving DecidableEq, Repr

/-- Options of the backend (qadence/backend.py:42-45) and facts about sympy and PyQTorch. -/
structure Config where
  /-- `_use_gate_params`; false for automatic differentiation (qadence/extensions.py:135) -/
  useGateParams : Bool
  /-- `use_single_qubit_composition` -/
  singleQubitComposition : Bool
  /-- names of functions of sympy -/
  isFunction : String → Bool
  /-- whether PyQTorch exports an operation named `Zero` -/
  hasZero : Bool

section
variable {T : Type} (W : ParamWorld T) (cfg : Config)

/-- An entry of `config.get_param_name(block)` (qadence/backend.py:89-105). -/
def paramName (e : Expr) : NParam := if cfg.useGateParams then .uuid e else .key (stringify W e)

/-- `extract_parameter` (qadence/backends/pyqtorch/convert_ops.py:80-98); `parametric` is `block.is_parametric`
(qadence/blocks/abstract.py:297-301). -/
def extractParameter (parametric : Bool) (e : Expr) : NParam := if parametric then paramName W cfg e else .const e

/-- `sympy.parse_expr(replace_underscore_floats(stringify(e)))` (qadence/backends/pyqtorch/convert_ops.py:101-128, 214-219). Names of
constants are `fix_` followed by a hash; before a negative number the name ends. -/
def parseName (e : Expr) : Except PyErr Expr :=
  if e.isNumber then
    if 0 ≤ (W.numeric e).hash then .ok (.var (stringify W e))
    else .ok (.add (.num (W.numeric e).hash 0) (.var "fix_"))
  else reread cfg.isFunction e

/-- The parameter of a scale block (qadence/backends/pyqtorch/convert_ops.py:211-221). -/
def scaleParam (parametric : Bool) (s : Expr) : Except PyErr NParam :=
  if parametric && !cfg.useGateParams then do
    let e ← parseName W cfg s
    let c ← sympyToPyq e
    return .callable c
  else .ok (extractParameter W cfg parametric s)
end

/-- Digital noise of a native operation: protocols with error probabilities. -/
abbrev NNoise := Option (List (NoiseEnum × Option Rat))

/-- `convert_digital_noise` (qadence/backends/pyqtorch/convert_ops.py:349-368), with the test for missing noise (lines 206-208). -/
def digitalNoise : Option (NoiseHandler Rat) → Except PyErr NNoise
  | none => .ok none
  | some h => do
    match ← h.filter .digital with
    | none => return none
    | some d => return some ((d.protocol.zip d.options).map fun po => (po.1, NoiseHandler.optGet po.2 "error_probability"))

/-- Controlled operations of PyQTorch. -/
inductive NCtrl
  | CNOT | CZ | CRX | CRY | CRZ | CPHASE | Toffoli | CSWAP
  deriving DecidableEq, Repr

/-- Calls of PyQTorch's constructors. -/
inductive Native
  /-- `pyq.X(q)` etc.; `pyq.N(q)` is `fixed (.N true)` -/
  | fixed (g : FixedGate) (q : Nat) (ν : NNoise)
  | rot (g : RotGate) (q : Nat) (p : NParam) (ν : NNoise)
  | u (q : Nat) (p₁ p₂ p₃ : NParam) (ν : NNoise)
  | swap (a b : Nat) (ν : NNoise)
  /-- `pyq.CNOT(controls, target)` etc. -/
  | ctrl (c : NCtrl) (cs ts : List Nat) (p : Option NParam) (ν : NNoise)
  | projector (ket bra : List Bool) (qs : List Nat) (ν : NNoise)
  /-- `pyq.primitives.Primitive(matrix, qubit_support)` -/
  | primitive (rows : List (List Expr)) (qs : List Nat) (ν : NNoise)
  /-- `pyq.HamiltonianEvolution(qubit_support, generator, time)` -/
  | hamEvo (qs : List Nat) (gen : Native) (time : NParam)
  /-- `pyq.Scale(op, param)` -/
  | scale (o : Native) (p : NParam)
  | add (os : List Native)
  | merge (os : List Native)
  | sequence (os : List Native)

/-- Parameters of a gate, `block.parameters.expressions()`. -/
def gateExprs : Gate → List Expr
  | .rot _ _ θ => [θ]
  | .u _ φ θ ω => [φ, θ, ω]
  | .control _ _ g => gateExprs g
  | _ => []

/-- `is_parametric` for a list of parameters (qadence/blocks/abstract.py:297-301). -/
def anyParam (es : List Expr) : Bool := es.any fun e => !e.isNumber

mutual
/-- `parameters(block)` (qadence/blocks/utils.py:201-249) without the splitting into symbols. -/
def exprsOf {L : Type} (le : L → List Expr) : Block L → List Expr
  | .leaf l _ => le l
  | .scale b s _ => s :: exprsOf le b
  | .comp _ bs _ => exprsOfAll le bs
/-- The same for all parts. -/
def exprsOfAll {L : Type} (le : L → List Expr) : List (Block L) → List Expr
  | [] => []
  | b :: bs => exprsOf le b ++ exprsOfAll le bs
end

/-- Parameters of primitive blocks. -/
def primExprs : Prim → List Expr
  | .gate g _ => gateExprs g
  | .hamEvo gen t => t :: exprsOf gateExprs gen

section
variable {T : Type} (W : ParamWorld T) (cfg : Config)

/-- The angle of a controlled rotation, `extract_parameter(block, config)`. -/
def ctrlParam (g : Gate) : Except PyErr NParam :=
  match g with
  | .rot _ _ θ => .ok (extractParameter W cfg (!θ.isNumber) θ)
  | _ => .error .attributeError

/-- Two-qubit controlled gates (qadence/backends/pyqtorch/convert_ops.py:309-322). -/
def twoQubit (c : NCtrl) (qs : List Nat) (p : Option NParam) (ν : NNoise) : Native :=
  .ctrl c [qs.getD 0 0] [qs.getD 1 0] p ν

/-- Gates with several controls (qadence/backends/pyqtorch/convert_ops.py:323-341). -/
def multiQubit (c : NCtrl) (qs : List Nat) (p : Option NParam) (ν : NNoise) : Native :=
  .ctrl c qs.dropLast [qs.getLastD 0] p ν

/-- The conversion of controlled gates (qadence/backends/pyqtorch/convert_ops.py:309-341); the leading `M` of a name is dropped. -/
def convCtrl (cls : CtrlClass) (qs : List Nat) (g : Gate) (ν : NNoise) : Except PyErr Native :=
  match cls with
  | .CNOT => .ok (twoQubit .CNOT qs none ν)
  | .CZ => .ok (twoQubit .CZ qs none ν)
  | .CRX => do return twoQubit .CRX qs (some (← ctrlParam W cfg g)) ν
  | .CRY => do return twoQubit .CRY qs (some (← ctrlParam W cfg g)) ν
  | .CRZ => do return twoQubit .CRZ qs (some (← ctrlParam W cfg g)) ν
  | .CPHASE => do return twoQubit .CPHASE qs (some (← ctrlParam W cfg g)) ν
  | .MCRX => do return multiQubit .CRX qs (some (← ctrlParam W cfg g)) ν
  | .MCRY => do return multiQubit .CRY qs (some (← ctrlParam W cfg g)) ν
  | .MCRZ => do return multiQubit .CRZ qs (some (← ctrlParam W cfg g)) ν
  | .MCPHASE => do return multiQubit .CPHASE qs (some (← ctrlParam W cfg g)) ν
  | .MCZ => .ok (multiQubit .CZ qs none ν)
  | .Toffoli => .ok (multiQubit .Toffoli qs none ν)
  | .CSWAP => .ok (.ctrl .CSWAP (qs.take (qs.length - 2)) (qs.drop (qs.length - 2)) none ν)

/-- `convert_block` for gates (qadence/backends/pyqtorch/convert_ops.py:206-208, 261-262, 271-341). `TDagger` is in none of the sets of
gates (qadence/operations/__init__.py:39-54). The state of `N` and the noise of `Zero` are not passed on (lines 274-288). -/
def convGate (g : Gate) (noise : Option (NoiseHandler Rat)) : Except PyErr Native := do
  let ν ← digitalNoise noise
  match g with
  | .fixed .TDagger _ => .error .notImplementedError
  | .fixed .Zero q => if cfg.hasZero then return .fixed .Zero q none else .error .attributeError
  | .fixed (.N _) q => return .fixed (.N true) q ν
  | .fixed g q => return .fixed g q ν
  | .rot g q θ => return .rot g q (extractParameter W cfg (!θ.isNumber) θ) ν
  | .u q φ θ ω => return .u q (paramName W cfg φ) (paramName W cfg θ) (paramName W cfg ω) ν
  | .swap a b => return .swap a b ν
  | .proj ket bra qs => return .projector ket bra qs ν
  | .matrix rows qs => return .primitive rows qs ν
  | .control cls cs g => convCtrl W cfg cls (cs ++ g.supp) g ν

/-- What the conversion has to know about leaves. -/
structure LeafConv (L : Type) where
  conv : L → Except PyErr Native
  exprs : L → List Expr
  supp : L → List Nat
  isU : L → Bool

variable {L : Type}

/-- `is_single_qubit_chain` (qadence/backends/pyqtorch/convert_ops.py:71-77) for a chain with the given parts. -/
def isSingleQubitChain (C : LeafConv L) (ord : List Nat → List Nat) (bs : List (Block L)) : Bool :=
  (Block.support C.supp ord (.comp .chain bs none)).length == 1 &&
    bs.all fun b =>
      match b with
      | .leaf l _ => !C.isU l
      | _ => false

/-- The operation for a composite block (qadence/backends/pyqtorch/convert_ops.py:263-270). -/
def composite (C : LeafConv L) (ord : List Nat → List Nat) (k : CKind) (bs : List (Block L)) (os : List Native) : Native :=
  match k with
  | .add => .add os
  | .kron => .sequence os
  | .chain => if isSingleQubitChain C ord bs && cfg.singleQubitComposition then .merge os else .sequence os

mutual
/-- `convert_block` (qadence/backends/pyqtorch/convert_ops.py:174-346); the returned list has always one element. -/
def convBlock (C : LeafConv L) (ord : List Nat → List Nat) : Block L → Except PyErr Native
  | .leaf l _ => C.conv l
  | .scale b s _ => do
    let o ← convBlock C ord b
    let p ← scaleParam W cfg (anyParam (s :: exprsOf C.exprs b)) s
    return .scale (.sequence [o]) p
  | .comp k bs _ => do
    let os ← convBlocks C ord bs
    return composite cfg C ord k bs os
/-- The operations of all parts. -/
def convBlocks (C : LeafConv L) (ord : List Nat → List Nat) : List (Block L) → Except PyErr (List Native)
  | [] => .ok []
  | b :: bs => do
    let o ← convBlock C ord b
    let os ← convBlocks C ord bs
    return o :: os
end

/-- Gates as leaves. -/
def gateConv : LeafConv Gate where
  conv := fun g => convGate W cfg g none
  exprs := gateExprs
  supp := Gate.supp
  isU := fun g => match g with
    | .u _ _ _ _ => true
    | _ => false

/-- `convert_block` for primitive blocks: gates and evolutions with a block as generator
(qadence/backends/pyqtorch/convert_ops.py:225-259). -/
def convPrim (ord : List Nat → List Nat) : Prim → Except PyErr Native
  | .gate g ν => convGate W cfg g ν
  | .hamEvo gen t => do
    let o ← convBlock W cfg (gateConv W cfg) ord gen
    return .hamEvo (Block.support Gate.supp ord gen) o (paramName W cfg t)

/-- Primitive blocks as leaves. -/
def primConv (ord : List Nat → List Nat) : LeafConv Prim where
  conv := convPrim W cfg ord
  exprs := primExprs
  supp := Prim.supp ord
  isU := fun l => match l with
    | .gate (.u _ _ _ _) _ => true
    | _ => false

/-- The block which is converted, `Backend.circuit` (qadence/backends/pyqtorch/backend.py:104-119) and `default_passes`
(qadence/backends/pyqtorch/config.py:22-38) for digital circuits without noise in the configuration; `transpile` runs the passes from right
to left. `ids` tells which parts of a chain are the same Python object. The same passes are used for observables
(qadence/backends/pyqtorch/backend.py:141-155). -/
def passes (ord : List Nat → List Nat) (ids : List (Block Prim) → List Nat) : List (Block Prim → Except PyErr (Block Prim)) :=
  [if cfg.singleQubitComposition then fun b => .ok (Block.chainSingle (Prim.supp ord) ord ids b)
    else fun b => .ok (Block.flatten [.chain, .kron, .add] b),
   fun b => .ok (Block.scaleOnly none b)]

/-- The native operation of a circuit (qadence/backends/pyqtorch/backend.py:104-140). -/
def convCircuit (ord : List Nat → List Nat) (ids : List (Block Prim) → List Nat) (b : Block Prim) : Except PyErr Native := do
  let b' ← Block.transpile (passes cfg ord ids) b
  convBlock W cfg (primConv W cfg ord) ord b'
end

end Qadence.Pyq
