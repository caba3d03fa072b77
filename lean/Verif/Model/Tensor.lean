import Mathlib.Analysis.Complex.Trigonometric
import Mathlib.Analysis.Normed.Algebra.MatrixExponential
import Mathlib.Data.List.Sort
import Mathlib.Data.Nat.Log
import Verif.Spec.Operator
import Verif.Model.Arith
import Verif.Model.Bits
import Verif.Model.Gate

/-!
# Conversion of blocks into matrices (`qadence/blocks/block_to_tensor.py`)

Tensors have a batch dimension in front; the model is the case of one set of parameter values. Parameter values are
the values of the expressions under an assignment (`Spec.eval`), which stands for `embedding` and `_gate_parameters`.
-/

namespace Qadence

open Complex

/-- A square torch tensor. Entries are only meaningful below `dim`. -/
structure TMat where
  dim : ℕ
  e : ℕ → ℕ → ℂ

namespace TMat

/-- `torch.tensor(rows)` -/
noncomputable def ofRows (rows : List (List ℂ)) : TMat := ⟨rows.length, fun i j => (rows.getD i []).getD j 0⟩

/-- `torch.kron` -/
noncomputable def kron (A B : TMat) : TMat :=
  ⟨A.dim * B.dim, fun i j => A.e (i / B.dim) (j / B.dim) * B.e (i % B.dim) (j % B.dim)⟩

/-- Matrix product of matrices of the same size. -/
noncomputable def mul (A B : TMat) : TMat :=
  ⟨A.dim, fun i j => ∑ k ∈ Finset.range A.dim, A.e i k * B.e k j⟩

/-- `torch.matmul`; sizes which do not fit raise a RuntimeError. -/
noncomputable def matmul (A B : TMat) : Except PyErr TMat :=
  if A.dim = B.dim then .ok (A.mul B) else .error .runtimeError

/-- `A + B`; sizes which do not fit raise a RuntimeError. -/
noncomputable def add (A B : TMat) : Except PyErr TMat :=
  if A.dim = B.dim then .ok ⟨A.dim, fun i j => A.e i j + B.e i j⟩ else .error .runtimeError

/-- `c * A` -/
noncomputable def smul (c : ℂ) (A : TMat) : TMat := ⟨A.dim, fun i j => c * A.e i j⟩

/-- The tensor as a matrix. -/
noncomputable def toMatrix (A : TMat) : Matrix (Fin A.dim) (Fin A.dim) ℂ := Matrix.of fun i j => A.e i j

/-- `torch.linalg.matrix_exp` -/
noncomputable def exp (A : TMat) : TMat :=
  ⟨A.dim, fun i j => if h : i < A.dim ∧ j < A.dim then NormedSpace.exp A.toMatrix ⟨i, h.1⟩ ⟨j, h.2⟩ else 0⟩

end TMat

/-! Constant matrices (qadence/blocks/block_to_tensor.py:27-41). -/

noncomputable def ZEROMAT : TMat := .ofRows [[0, 0], [0, 0]]
noncomputable def IMAT : TMat := .ofRows [[1, 0], [0, 1]]
noncomputable def XMAT : TMat := .ofRows [[0, 1], [1, 0]]
noncomputable def YMAT : TMat := .ofRows [[0, -I], [I, 0]]
noncomputable def ZMAT : TMat := .ofRows [[1, 0], [0, -1]]
noncomputable def NMAT : TMat := .ofRows [[0, 0], [0, 1]]
noncomputable def SMAT : TMat := .ofRows [[1, 0], [0, I]]
noncomputable def SDAGMAT : TMat := .ofRows [[1, 0], [0, -I]]
noncomputable def TMAT : TMat := .ofRows [[1, 0], [0, exp (I * Real.pi / 4)]]
/-- The sign of the exponent is the one of the code. -/
noncomputable def TDAGMAT : TMat := .ofRows [[1, 0], [0, exp (I * Real.pi / 4)]]
noncomputable def HMAT : TMat := .smul (1 / (Real.sqrt 2 : ℝ)) (.ofRows [[1, 1], [1, -1]])

/-- `OPERATIONS_DICT` (qadence/blocks/block_to_tensor.py:44-56). -/
noncomputable def operationsDict : String → Option TMat
  | "Zero" => some ZEROMAT
  | "I" => some IMAT
  | "X" => some XMAT
  | "Y" => some YMAT
  | "Z" => some ZMAT
  | "S" => some SMAT
  | "SDagger" => some SDAGMAT
  | "T" => some TMAT
  | "TDagger" => some TDAGMAT
  | "H" => some HMAT
  | "N" => some NMAT
  | _ => none

/-- The attribute `name` (qadence/types.py:342-470 and qadence/operations/primitive.py:325 for `TDagger`). -/
def FixedGate.pyName : FixedGate → String
  | .I => "I"
  | .X => "X"
  | .Y => "Y"
  | .Z => "Z"
  | .H => "H"
  | .S => "S"
  | .SDagger => "SDagger"
  | .T => "T"
  | .TDagger => "T_dagger"
  | .Zero => "Zero"
  | .N _ => "N"

/-- `_fill_identities` (qadence/blocks/block_to_tensor.py:59-104), `diag_only=False`. -/
noncomputable def fillIdentities (en : Endian) (B : TMat) (qs fs : List ℕ) : Except PyErr TMat :=
  let fs := fs.insertionSort (· ≤ ·)
  let qs := qs.insertionSort (· ≤ ·)
  match qs, fs with
  | q0 :: _, f0 :: rest =>
    let kr (mat other : TMat) : TMat := match en with
      | .little => other.kron mat
      | .big => mat.kron other
    .ok (rest.foldl
      (fun mat i => if i = q0 then kr mat B else if i ∉ qs then kr mat IMAT else mat)
      (if q0 ≠ f0 then IMAT else B))
  | _, _ => .error .indexError

/-- `_rot_matrices` (qadence/blocks/block_to_tensor.py:107-126). -/
noncomputable def rotMatrices (θ : ℂ) (G : TMat) : TMat :=
  ⟨2, fun i j => cos (θ / 2) * IMAT.e i j - I * sin (θ / 2) * G.e i j⟩

/-- `_u_matrix` (qadence/blocks/block_to_tensor.py:129-144). -/
noncomputable def uMatrix (φ θ ω : ℂ) : TMat :=
  (rotMatrices ω ZMAT).mul ((rotMatrices θ YMAT).mul (rotMatrices φ ZMAT))

/-- `_phase_matrix` (qadence/blocks/block_to_tensor.py:147-157). -/
noncomputable def phaseMatrix (θ : ℂ) : TMat :=
  ⟨2, fun i j => 1 / 2 * (IMAT.e i j + ZMAT.e i j) + exp (I * θ) * (1 / 2) * (IMAT.e i j - ZMAT.e i j)⟩

/-- `_parametric_matrix` (qadence/blocks/block_to_tensor.py:160-172) for one-parameter gates. -/
noncomputable def parametricMatrix (θ : ℂ) : RotGate → TMat
  | .RX => rotMatrices θ XMAT
  | .RY => rotMatrices θ YMAT
  | .RZ => rotMatrices θ ZMAT
  | .PHASE => phaseMatrix θ

/-- Big-endian number of a bitstring, the position of the 1 in `product_state(bits)`. -/
def bitsIndex (s : List Bool) : ℕ := s.foldl (fun acc b => 2 * acc + b.toNat) 0

/-- `torch.kron(ket, bra.T)` for the product states of shape (1, 2^k) (qadence/blocks/block_to_tensor.py:495-499). -/
noncomputable def projMatrix (ket bra : List Bool) : TMat :=
  ⟨2 ^ ket.length, fun i j => (if j = bitsIndex ket then 1 else 0) * (if i = bitsIndex bra then 1 else 0)⟩

/-- Matrices of primitive blocks which are filled up with identities
(qadence/blocks/block_to_tensor.py:461-476, 484-507). -/
noncomputable def baseTensor (ρ : Spec.Env) (en : Endian) (fs : List ℕ) : Gate → Except PyErr TMat
  | .fixed g q =>
    match operationsDict g.pyName with
    | some M => fillIdentities en M [q] fs
    | none => .error .typeError
  | .rot g q θ => fillIdentities en (parametricMatrix (Spec.eval ρ θ) g) [q] fs
  | .u q φ θ ω => fillIdentities en (uMatrix (Spec.eval ρ φ) (Spec.eval ρ θ) (Spec.eval ρ ω)) [q] fs
  | .proj ket bra qs => fillIdentities en (projMatrix ket bra) qs fs
  | .matrix rows qs => fillIdentities en (.ofRows (rows.map (List.map (Spec.eval ρ)))) qs fs
  | _ => .error .typeError

namespace TMat

/-- `k + 1` identity (or zero) factors (qadence/blocks/block_to_tensor.py:386-388, 399-401). -/
noncomputable def power (M : TMat) : ℕ → TMat
  | 0 => M
  | k + 1 => (power M k).kron M

end TMat

namespace Block

variable {L : Type}

mutual
/-- `_block_to_tensor_embedded` on scale and composite blocks (qadence/blocks/block_to_tensor.py:384-407, 455-459);
`lt` is its value on leaves and `fs` the argument `qubit_support`. -/
noncomputable def tensor (ρ : Spec.Env) (lt : L → Except PyErr TMat) (fs : List ℕ) : Block L → Except PyErr TMat
  | .leaf l _ => lt l
  | .scale b s _ => do return (← tensor ρ lt fs b).smul (Spec.eval ρ s)
  | .comp .add bs _ => tensorSum ρ lt fs (ZEROMAT.power (fs.length - 1)) bs
  | .comp _ bs _ => tensorProd ρ lt fs (IMAT.power (fs.length - 1)) bs
/-- The loop over the parts of a chain or kron. -/
noncomputable def tensorProd (ρ : Spec.Env) (lt : L → Except PyErr TMat) (fs : List ℕ) (mat : TMat) :
    List (Block L) → Except PyErr TMat
  | [] => .ok mat
  | b :: bs => do
    let other ← tensor ρ lt fs b
    tensorProd ρ lt fs (← other.matmul mat) bs
/-- The loop over the parts of an add. -/
noncomputable def tensorSum (ρ : Spec.Env) (lt : L → Except PyErr TMat) (fs : List ℕ) (mat : TMat) :
    List (Block L) → Except PyErr TMat
  | [] => .ok mat
  | b :: bs => do
    let other ← tensor ρ lt fs b
    tensorSum ρ lt fs (← mat.add other) bs
end

end Block

/-- `P1(q)` (qadence/utils.py:289-318). -/
def p1Block (q : ℕ) : Block Gate := .leaf (.proj [true] [true] [q]) none

/-- `_controlled_block_with_params` (qadence/blocks/block_to_tensor.py:175-204) for control qubits `cs`, target `t`
and `block.blocks[0] = inner`. -/
def controlledBlock (ord : List ℕ → List ℕ) (cs : List ℕ) (t : ℕ) (inner : Gate) : Except PyErr (Block Gate) := do
  let p1 ← Block.kronOf Gate.supp ord (cs.map p1Block)
  match cs with
  | [] => .error .indexError
  | c0 :: _ =>
    let p0 := Block.addOf [.leaf (.fixed .I c0) none, Block.minus p1]
    let a ← Block.kronOf Gate.supp ord [p0, .leaf (.fixed .I t) none]
    let b ← Block.kronOf Gate.supp ord [p1, .leaf inner none]
    return Block.addOf [a, b]

/-- Matrix of a control block other than `CSWAP` (qadence/blocks/block_to_tensor.py:448-453): control qubits are all
but the last qubit of the support. -/
noncomputable def controlTensor (ρ : Spec.Env) (en : Endian) (ord : List ℕ → List ℕ) (fs : List ℕ) :
    Gate → Except PyErr TMat
  | .control cls cs inner => do
    let s := (Gate.control cls cs inner).supp
    let b ← controlledBlock ord s.dropLast (s.getLastD 0) inner
    b.tensor ρ (baseTensor ρ en fs) fs
  | g => baseTensor ρ en fs g

/-- `_swap_block` (qadence/blocks/block_to_tensor.py:207-223). -/
def swapBlock (c t : ℕ) : Block Gate :=
  Block.chainOf [.leaf (Gate.cnot c t) none, .leaf (Gate.cnot t c) none, .leaf (Gate.cnot c t) none]

/-- `_cswap_block` (qadence/blocks/block_to_tensor.py:226-239). -/
def cswapBlock (c t₁ t₂ : ℕ) : Block Gate :=
  Block.chainOf [.leaf (Gate.toffoli [c, t₂] t₁) none, .leaf (Gate.toffoli [c, t₁] t₂) none,
    .leaf (Gate.toffoli [c, t₂] t₁) none]

/-- `_block_to_tensor_embedded` on primitive blocks in the order of its branches
(qadence/blocks/block_to_tensor.py:442-510). -/
noncomputable def Gate.tensor (ρ : Spec.Env) (en : Endian) (ord : List ℕ → List ℕ) (fs : List ℕ) :
    Gate → Except PyErr TMat
  | .control .CSWAP cs inner =>
    match (Gate.control .CSWAP cs inner).supp with
    | c :: t₁ :: t₂ :: _ => (cswapBlock c t₁ t₂).tensor ρ (controlTensor ρ en ord fs) fs
    | _ => .error .indexError
  | .swap a b => (swapBlock a b).tensor ρ (controlTensor ρ en ord fs) fs
  | g => controlTensor ρ en ord fs g

/-- `_block_to_tensor_embedded(block, values, qubit_support=fs, endianness=en)`
(qadence/blocks/block_to_tensor.py:365-512) for blocks of gates. -/
noncomputable def blockToTensor (ρ : Spec.Env) (en : Endian) (ord : List ℕ → List ℕ) (fs : List ℕ) (b : Block Gate) :
    Except PyErr TMat :=
  b.tensor ρ (Gate.tensor ρ en ord fs) fs

/-- The same for primitive blocks with Hamiltonian evolutions (qadence/blocks/block_to_tensor.py:409-440, block
generators only). -/
noncomputable def Prim.tensor (ρ : Spec.Env) (en : Endian) (ord : List ℕ → List ℕ) (fs : List ℕ) :
    Prim → Except PyErr TMat
  | .gate g _ => g.tensor ρ en ord fs
  | .hamEvo gen t =>
    if gen.support Gate.supp ord = [] then .error .valueError
    else do
      let G ← blockToTensor ρ en ord fs gen
      return (G.smul (-I * Spec.eval ρ t)).exp

end Qadence
