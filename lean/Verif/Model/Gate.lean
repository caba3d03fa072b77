import Verif.Model.Block
import Verif.Model.Noise

/-!
# Primitive blocks (`qadence/operations/*.py`)
-/

namespace Qadence

/-- One-qubit operations without parameters (qadence/operations/primitive.py:29-360). -/
inductive FixedGate
  | I | X | Y | Z | H | S | SDagger | T | TDagger | Zero
  /-- `N(target, state)` (qadence/operations/primitive.py:154-179) -/
  | N (state : Bool)
  deriving DecidableEq, Repr

/-- One-qubit operations with one parameter (qadence/operations/parametric.py:31-150). -/
inductive RotGate
  | RX | RY | RZ | PHASE
  deriving DecidableEq, Repr

/-- Classes of controlled operations (qadence/operations/control_ops.py). -/
inductive CtrlClass
  | CNOT | CZ | MCZ | Toffoli | CSWAP | CRX | MCRX | CRY | MCRY | CRZ | MCRZ | CPHASE | MCPHASE
  deriving DecidableEq, Repr

/-- A primitive block without its noise. -/
inductive Gate
  | fixed (g : FixedGate) (q : Nat)
  | rot (g : RotGate) (q : Nat) (θ : Expr)
  /-- `U(target, phi, theta, omega)` (qadence/operations/parametric.py:153-202) -/
  | u (q : Nat) (φ θ ω : Expr)
  /-- `SWAP(control, target)` (qadence/operations/primitive.py:318-357) -/
  | swap (q₁ q₂ : Nat)
  /-- `Projector(ket, bra, qubit_support)` (qadence/operations/primitive.py:131-151) -/
  | proj (ket bra : List Bool) (qs : List Nat)
  /-- `MatrixBlock(matrix, qubit_support)` (qadence/blocks/matrix.py:20-140); the matrix is given by rows -/
  | matrix (rows : List (List Expr)) (qs : List Nat)
  /-- a `ControlBlock` or `ParametricControlBlock` with control qubits `cs` and `blocks = (inner,)`
  (qadence/blocks/primitive.py:365-511) -/
  | control (cls : CtrlClass) (cs : List Nat) (inner : Gate)
  deriving DecidableEq, Repr

namespace Gate

/-- `qubit_support` of primitive blocks (qadence/blocks/primitive.py:40-45, 386, 448). -/
def supp : Gate → List Nat
  | fixed _ q => [q]
  | rot _ q _ => [q]
  | u q _ _ _ => [q]
  | swap a b => [a, b]
  | proj _ _ qs => qs
  | matrix _ qs => qs
  | control _ cs g => cs ++ supp g

/-- Constructors of controlled gates (qadence/operations/control_ops.py:33-330). -/
def cnot (c t : Nat) : Gate := .control .CNOT [c] (.fixed .X t)
def cz (c t : Nat) : Gate := .control .CZ [c] (.fixed .Z t)
def mcz (cs : List Nat) (t : Nat) : Gate := .control .MCZ cs (.fixed .Z t)
def toffoli (cs : List Nat) (t : Nat) : Gate := .control .Toffoli cs (.fixed .X t)
def cswap (c t₁ t₂ : Nat) : Gate := .control .CSWAP [c] (.swap t₁ t₂)
def crx (c t : Nat) (θ : Expr) : Gate := .control .CRX [c] (.rot .RX t θ)
def cry (c t : Nat) (θ : Expr) : Gate := .control .CRY [c] (.rot .RY t θ)
def crz (c t : Nat) (θ : Expr) : Gate := .control .CRZ [c] (.rot .RZ t θ)
def cphase (c t : Nat) (θ : Expr) : Gate := .control .CPHASE [c] (.rot .PHASE t θ)
def mcrx (cs : List Nat) (t : Nat) (θ : Expr) : Gate := .control .MCRX cs (.rot .RX t θ)
def mcry (cs : List Nat) (t : Nat) (θ : Expr) : Gate := .control .MCRY cs (.rot .RY t θ)
def mcrz (cs : List Nat) (t : Nat) (θ : Expr) : Gate := .control .MCRZ cs (.rot .RZ t θ)
def mcphase (cs : List Nat) (t : Nat) (θ : Expr) : Gate := .control .MCPHASE cs (.rot .PHASE t θ)

end Gate

/-- Primitive blocks as they occur in circuits: gates and Hamiltonian evolutions. -/
inductive Prim
  | gate (g : Gate) (noise : Option (NoiseHandler Rat))
  /-- `HamEvo(generator, t)` with a block generator (qadence/operations/ham_evo.py:33-170); the support is the
  one of the generator, the optional argument `qubit_support` is not modelled -/
  | hamEvo (gen : Block Gate) (t : Expr)

/-- `qubit_support` of primitive blocks (qadence/operations/ham_evo.py:107). -/
def Prim.supp (ord : List Nat → List Nat) : Prim → List Nat
  | .gate g _ => g.supp
  | .hamEvo gen _ => gen.support Gate.supp ord

end Qadence
