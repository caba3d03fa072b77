import Mathlib.Data.Nat.Log
import Verif.Model.Gate

/-!
# Sizes of blocks and construction of circuits (`qadence/circuit.py`)
-/

namespace Qadence

/-- Python's `max(t) + 1` on a tuple of qubits; `max` of an empty tuple raises a ValueError. -/
def maxPlusOne (t : List Nat) : Except PyErr Nat :=
  if t.isEmpty then .error .valueError else .ok (QSupport.tupleMax t + 1)

/-- Subclasses of `ParametricControlBlock` (qadence/operations/control_ops.py:98-268). -/
def CtrlClass.isParametric : CtrlClass → Bool
  | .CRX | .MCRX | .CRY | .MCRY | .CRZ | .MCRZ | .CPHASE | .MCPHASE => true
  | .CNOT | .CZ | .MCZ | .Toffoli | .CSWAP => false

/-- `n_qubits` of primitive blocks: qadence/blocks/primitive.py:108-110 in general,
qadence/operations/primitive.py:313-315, 343-345 (`T`, `TDagger`), qadence/operations/parametric.py:193-195 (`U`),
qadence/blocks/matrix.py:103-105, qadence/operations/control_ops.py:337-339 (`Toffoli`),
qadence/blocks/primitive.py:459-461 (`ParametricControlBlock`). The matrix of a `MatrixBlock` has a power of two as size. -/
def Gate.nQubits : Gate → Except PyErr Nat
  | .fixed .T _ => .ok 1
  | .fixed .TDagger _ => .ok 1
  | .u _ _ _ _ => .ok 1
  | .matrix rows _ => .ok (Nat.log 2 rows.length)
  | .control cls cs g =>
    if cls.isParametric || cls = .Toffoli then .ok (Gate.control cls cs g).supp.length
    else maxPlusOne (Gate.control cls cs g).supp
  | g => maxPlusOne g.supp

namespace Block

variable {L : Type}

/-- `n_qubits` of blocks (qadence/blocks/primitive.py:277-279, qadence/blocks/composite.py:43-48); `nq` is the size of
leaves. -/
def nQubits (supp : L → List Nat) (nq : L → Except PyErr Nat) (ord : List Nat → List Nat) : Block L → Except PyErr Nat
  | .leaf l _ => nq l
  | .scale b _ _ => nQubits supp nq ord b
  | .comp k bs t =>
    match support supp ord (.comp k bs t) with
    | [] => .ok 0
    | s => maxPlusOne s

/-- `len(block)` (qadence/blocks/abstract.py:219-220, qadence/blocks/primitive.py:64-65,
qadence/blocks/composite.py:68-69). -/
def len : Block L → Nat
  | .comp _ bs _ => bs.length
  | _ => 1

end Block

/-- `n_qubits` of primitive blocks; `HamEvo` takes the one of its generator (qadence/operations/ham_evo.py:194-201). -/
def Prim.nQubits (ord : List Nat → List Nat) : Prim → Except PyErr Nat
  | .gate g _ => g.nQubits
  | .hamEvo gen _ => gen.nQubits Gate.supp Gate.nQubits ord

/-- A `QuantumCircuit`; of the register only the number of qubits is modelled here. -/
structure Circuit (L : Type) where
  nReg : Nat
  block : Block L

/-- `chain(*blocks) if len(blocks) != 1 else blocks[0]` (qadence/circuit.py:40). -/
def Circuit.rootBlock {L : Type} : List (Block L) → Block L
  | [b] => b
  | bs => Block.chainOf bs

/-- `QuantumCircuit(support, *blocks)` (qadence/circuit.py:32-48) for digital blocks. -/
def Circuit.new {L : Type} (supp : L → List Nat) (nq : L → Except PyErr Nat) (ord : List Nat → List Nat)
    (nReg : Nat) (blocks : List (Block L)) : Except PyErr (Circuit L) := do
  let block := Circuit.rootBlock blocks
  if block.len = 0 then return ⟨nReg, block⟩
  let m ← block.nQubits supp nq ord
  if m > nReg then .error .valueError
  else return ⟨nReg, block⟩

end Qadence
