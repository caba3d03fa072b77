import Mathlib.Analysis.SpecialFunctions.Complex.Log
import Verif.Model.Gate
import Verif.Model.Bits

/-!
# State preparation (`qadence/states.py`)

A bitstring is a list of booleans, a tensor of wave functions is the list of its rows. Numbers are exact. Numbers of qubits
are not negative. The tensors `norm` of the code are numbers.
-/

namespace Qadence.States

open Block

/-- `_from_op(op, n_qubits)` (qadence/states.py:86-87). -/
def fromOp (ord : List Nat → List Nat) (op : FixedGate) (n : Nat) : Except PyErr (Block Gate) :=
  kronOf Gate.supp ord ((List.range n).map fun i => .leaf (.fixed op i) none)

/-- The gates of `_block_from_bitstring`, `zip(range(n_qubits), bitstring)` from position `i` on
(qadence/states.py:93-94). -/
def bitGates : Nat → Bits → List (Block Gate)
  | _, [] => []
  | i, b :: s => .leaf (if b then .fixed .X i else .fixed .I i) none :: bitGates (i + 1) s

/-- `_block_from_bitstring(bitstring)`, `product_block(bitstring)` (qadence/states.py:90-95, 414-431). -/
def productBlock (ord : List Nat → List Nat) (s : Bits) : Except PyErr (Block Gate) :=
  kronOf Gate.supp ord (bitGates 0 s)

/-- `uniform_block(n_qubits)` (qadence/states.py:351-369). -/
def uniformBlock (ord : List Nat → List Nat) (n : Nat) : Except PyErr (Block Gate) := fromOp ord .H n

/-- `one_block(n_qubits)` (qadence/states.py:372-390). -/
def oneBlock (ord : List Nat → List Nat) (n : Nat) : Except PyErr (Block Gate) := fromOp ord .X n

/-- `zero_block(n_qubits)` (qadence/states.py:393-411). -/
def zeroBlock (ord : List Nat → List Nat) (n : Nat) : Except PyErr (Block Gate) := fromOp ord .I n

/-- `ghz_block(n_qubits)` (qadence/states.py:454-473); `range(1, n_qubits)` is empty for no qubits. -/
def ghzBlock (n : Nat) : Block Gate :=
  let cnots := chainOf ((List.range' 1 (n - 1)).map fun i => .leaf (Gate.cnot (i - 1) i) none)
  chainOf [.leaf (.fixed .H 0) none, cnots]

/-- `_state_from_bitstring(bitstring, batch_size, endianness)` (qadence/states.py:98-105). -/
def stateFromBitstring (s : Bits) (batch : Nat) (e : Endian) : Except PyErr (List (List ℂ)) := do
  let n := s.length
  let wf := List.replicate batch (List.replicate (2 ^ n) (0 : ℂ))
  let k ← basisToInt s e
  return wf.map fun row => row.set k 1

/-- `uniform_state(n_qubits, batch_size)` (qadence/states.py:127-147). -/
noncomputable def uniformState (n batch : Nat) : List (List ℂ) :=
  let norm : ℂ := ((1 / Real.sqrt (2 ^ n) : ℝ) : ℂ)
  List.replicate batch ((List.replicate (2 ^ n) (1 : ℂ)).map fun a => norm * a)

/-- `zero_state(n_qubits, batch_size)` (qadence/states.py:150-170). -/
def zeroState (n batch : Nat) : Except PyErr (List (List ℂ)) := stateFromBitstring (List.replicate n false) batch .big

/-- `one_state(n_qubits, batch_size)` (qadence/states.py:173-193). -/
def oneState (n batch : Nat) : Except PyErr (List (List ℂ)) := stateFromBitstring (List.replicate n true) batch .big

/-- `ghz_state(n_qubits, batch_size)` (qadence/states.py:259-278). -/
noncomputable def ghzState (n batch : Nat) : Except PyErr (List (List ℂ)) := do
  let norm : ℂ := ((1 / Real.sqrt 2 : ℝ) : ℂ)
  let z ← zeroState n batch
  let o ← oneState n batch
  return (List.zipWith (List.zipWith (· + ·)) z o).map fun row => row.map fun a => norm * a

/-- `Backend.run` (qadence/backends/pyqtorch/backend.py:158-179) around the simulation `native` of a block on `n` qubits in
the native (big) endianness. -/
def runEndian (native : Nat → Block Gate → Except PyErr (List (List ℂ))) (n : Nat) (b : Block Gate) (e : Endian) :
    Except PyErr (List (List ℂ)) := do
  let state ← native n b
  match e with
  | .big => return state
  | .little => invertWf n state

/-- `product_state(bitstring, endianness=...)` (qadence/states.py:196-227), for a single string and for the simulation
`native`. `n_qubits` of the block is the length of the string (`C18_composite_size`). -/
def productState (native : Nat → Block Gate → Except PyErr (List (List ℂ))) (ord : List Nat → List Nat) (s : Bits)
    (e : Endian) : Except PyErr (List (List ℂ)) := do
  let b ← productBlock ord s
  runEndian native s.length b e

/-- `product_state` of a list of strings: the batches are concatenated (qadence/states.py:230-232). -/
def productStates (native : Nat → Block Gate → Except PyErr (List (List ℂ))) (ord : List Nat → List Nat) (ss : List Bits) :
    Except PyErr (List (List ℂ)) := do
  return (← ss.mapM fun s => productState native ord s .big).flatten

/-- `rand_product_state(n_qubits, batch_size)` (qadence/states.py:235-256) for the random positions `pos`. -/
def randProductState (n : Nat) (pos : List Nat) : List (List ℂ) :=
  pos.map fun k => (List.replicate (2 ^ n) (0 : ℂ)).set k 1

/-- `_rand_haar_fast(n_qubits)` (qadence/states.py:60-66) for the random numbers `u` and `v`. -/
noncomputable def randHaarFast (u v : List ℝ) : List ℂ :=
  let x := u.map fun t => -Real.log t
  let sumx := x.sum
  let phases := v.map fun t => t * 2 * Real.pi
  List.zipWith (fun a p : ℝ => ((Real.sqrt (a / sumx) : ℝ) : ℂ) * Complex.exp (Complex.I * p)) x phases

/-- `(wf.abs() ** 2).sum()` of a row. -/
noncomputable def normSq (row : List ℂ) : ℝ := (row.map fun a => ‖a‖ ^ 2).sum

/-- `normalize(wf)` of a row (qadence/states.py:499-519). Division by zero gives zero here, not a number in the code. -/
noncomputable def normalize (row : List ℂ) : List ℂ := row.map fun a => a / ((Real.sqrt (normSq row) : ℝ) : ℂ)

/-- `is_normalized(wf, atol)` (qadence/states.py:522-544). -/
def isNormalized (wf : List (List ℂ)) (atol : ℝ) : Prop := ∀ row ∈ wf, |normSq row - 1| ≤ atol

/-- `pmf(wf).probs` of a normalised row (qadence/states.py:479-496). -/
noncomputable def pmf (row : List ℂ) : List ℝ := row.map fun a => ‖a ^ 2‖

/-- `density_mat(state)` (qadence/states.py:333-345) of a row. -/
noncomputable def densityMat (row : List ℂ) : List (List ℂ) := row.map fun a => row.map fun b => a * (starRingEnd ℂ) b

/-- `overlap_exact(bras, kets)` (qadence/overlap.py:157-167) of two rows. -/
noncomputable def overlapExact (bra ket : List ℂ) : ℝ :=
  ‖(List.zipWith (fun a b => (starRingEnd ℂ) a * b) bra ket).sum‖ ^ 2

end Qadence.States
