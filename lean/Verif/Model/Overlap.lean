import Verif.Model.Circuit
import Verif.Model.Dagger
import Verif.Model.Reassign
import Verif.Model.States
import Verif.Model.Tensor

/-!
# Overlaps of circuits (`qadence/overlap.py`)

Circuits of gates with one set of parameter values. The simulation and the sampling of a circuit are arguments: `run n b`
are the wave functions of the block `b` on `n` qubits, `sample n b` the counters. Numbers are exact.
-/

namespace Qadence.Overlap

open Block

/-- `P0(target)` (qadence/utils.py:290-304, 319). -/
def p0 (q : Nat) : Block Gate := .leaf (.proj [false] [false] [q]) none

/-- `P1(target)` (qadence/utils.py:290-304, 320). -/
def p1 (q : Nat) : Block Gate := .leaf (.proj [true] [true] [q]) none

/-- `I(target)`. -/
def ident (q : Nat) : Block Gate := .leaf (.fixed .I q) none

/-- `_cswap(control, target1, target2)` (qadence/overlap.py:26-33). The sum of two krons is an `AddBlock` with two parts. -/
def cswap (ord : List Nat → List Nat) (c t₁ t₂ : Nat) : Except PyErr (Block Gate) := do
  let off ← kronOf Gate.supp ord [p0 c, ident t₁, ident t₂]
  let on ← kronOf Gate.supp ord [p1 c, .leaf (.swap t₁ t₂) none]
  return .comp .add [off, on] (some s!"CSWAP({c}, {t₁}, {t₂})")

/-- `_controlled_unitary(control, unitary_block)` (qadence/overlap.py:36-48). The text of the tag is shortened. -/
def controlledUnitary (ord : List Nat → List Nat) (c : Nat) (b : Block Gate) : Except PyErr (Block Gate) := do
  let n ← b.nQubits Gate.supp Gate.nQubits ord
  let shifted ← b.reassignGates ord ((List.range n).map fun i => (i, c + i + 1))
  let off ← kronOf Gate.supp ord (p0 c :: (List.range n).map fun i => ident (c + i + 1))
  let on ← kronOf Gate.supp ord [p1 c, shifted]
  return .comp .add [off, on] (some s!"c-U({c}, {shifted.support Gate.supp ord})")

/-- `block.dagger()`. -/
def daggerGates (b : Block Gate) : Block Gate := b.dagger Gate.dagger Gate.daggerKeepsTag

/-- `QuantumCircuit(n, *blocks)`. -/
def circuit (ord : List Nat → List Nat) (n : Nat) (bs : List (Block Gate)) : Except PyErr (Circuit Gate) :=
  Circuit.new Gate.supp Gate.nQubits ord n bs

/-- The circuit of COMPUTE_UNCOMPUTE (qadence/overlap.py:87-92). -/
def computeUncompute (ord : List Nat → List Nat) (bra ket : Circuit Gate) : Except PyErr (Circuit Gate) :=
  circuit ord bra.nReg [bra.block, daggerGates ket.block]

/-- The circuit of SWAP_TEST (qadence/overlap.py:101-115). -/
def swapTest (ord : List Nat → List Nat) (bra ket : Circuit Gate) : Except PyErr (Circuit Gate) := do
  let n := bra.nReg
  let sBra ← bra.block.reassignGates ord ((List.range n).map fun i => (i, i + 1))
  let sKet ← ket.block.reassignGates ord ((List.range n).map fun i => (i, i + n + 1))
  let states ← kronOf Gate.supp ord [sBra, sKet]
  let cswaps ← (List.range n).mapM fun i => cswap ord 0 (i + 1) (i + 1 + n)
  circuit ord (2 * n + 1) [chainOf [.leaf (.fixed .H 0) none, states, chainOf cswaps, .leaf (.fixed .H 0) none]]

/-- The circuits of HADAMARD_TEST for the real and the imaginary part (qadence/overlap.py:124-137). -/
def hadamardTest (ord : List Nat → List Nat) (bra ket : Circuit Gate) : Except PyErr (Circuit Gate × Circuit Gate) := do
  let n := bra.nReg
  let cBra ← controlledUnitary ord 0 bra.block
  let cKet ← controlledUnitary ord 0 (daggerGates ket.block)
  let re ← circuit ord (n + 1) [chainOf [.leaf (.fixed .H 0) none, cBra, cKet, .leaf (.fixed .H 0) none]]
  let im ← circuit ord (n + 1)
    [chainOf [.leaf (.fixed .H 0) none, cBra, cKet, .leaf (.fixed .S 0) none, .leaf (.fixed .H 0) none]]
  return (re, im)

/-! ## Values from wave functions -/

/-- `overlap_compute_uncompute` of wave functions (qadence/overlap.py:199-201). -/
noncomputable def valueComputeUncompute (wf : List (List ℂ)) : Except PyErr (List ℝ) :=
  wf.mapM fun row => match row[0]? with
    | some a => .ok (‖a‖ ^ 2)
    | none => .error .indexError

/-- `meas_op` (qadence/overlap.py:226-229, 272-275). -/
noncomputable def measOp (n : Nat) : TMat :=
  .kron (.ofRows [[1, 0], [0, 0]]) ⟨2 ^ (n - 1), fun i j => if i = j then 1 else 0⟩

/-- `prob0` of one wave function of length `2 ^ n` (qadence/overlap.py:232). Sizes which do not fit raise a RuntimeError. -/
noncomputable def prob0 (row : List ℂ) : Except PyErr ℝ :=
  let M := measOp (Nat.log 2 row.length)
  if M.dim = row.length then
    .ok (∑ i ∈ Finset.range row.length,
      (starRingEnd ℂ) (row.getD i 0) * ∑ j ∈ Finset.range row.length, M.e i j * row.getD j 0).re
  else .error .runtimeError

/-- `overlap_swap_test` of wave functions (qadence/overlap.py:222-232, 246-249). -/
noncomputable def valueSwapTest (wf : List (List ℂ)) : Except PyErr (List ℝ) := do
  return (← wf.mapM prob0).map fun p => 2 * p - 1

/-- `prob0_re`, `prob0_im` (qadence/overlap.py:278-279); here the other factor is conjugated. -/
noncomputable def prob0' (row : List ℂ) : Except PyErr ℝ :=
  let M := measOp (Nat.log 2 row.length)
  if M.dim = row.length then
    .ok (∑ i ∈ Finset.range row.length,
      row.getD i 0 * ∑ j ∈ Finset.range row.length, M.e i j * (starRingEnd ℂ) (row.getD j 0)).re
  else .error .runtimeError

/-- `overlap_hadamard_test` of wave functions (qadence/overlap.py:269-279, 297-300), for batches of the same size. -/
noncomputable def valueHadamardTest (re im : List (List ℂ)) : Except PyErr (List ℝ) := do
  let p ← re.mapM prob0'
  let q ← im.mapM prob0'
  return List.zipWith (fun a b : ℝ => (2 * a - 1) ^ 2 + (2 * b - 1) ^ 2) p q

/-! ## Values from counters -/

/-- `sum(list(bras[0].values()))` after `len(list(bras[0].keys())[0])` (qadence/overlap.py:205-206, 236-237, 283-284);
the lengths of empty lists are not there. -/
def firstCounter (cs : List (PyDict Bits Nat)) : Except PyErr (Nat × Nat) :=
  match cs with
  | ((k, v) :: c) :: _ => .ok (k.length, (((k, v) :: c).map Prod.snd).sum)
  | _ => .error .indexError

/-- `overlap_compute_uncompute` of counters (qadence/overlap.py:203-206). A missing key of a counter has the value zero. -/
def countsComputeUncompute (cs : List (PyDict Bits Nat)) : Except PyErr (List ℚ) := do
  let (n, shots) ← firstCounter cs
  return cs.map fun c => (((c.get? (List.replicate n false)).getD 0 : Nat) : ℚ) / shots

/-- `sum(map(lambda k, v: v if k[0] == "0" else 0, p.keys(), p.values())) / n_shots` (qadence/overlap.py:240, 287, 293). -/
def fraction0 (shots : Nat) (c : PyDict Bits Nat) : ℚ :=
  ((c.map fun kv => if kv.1[0]? = some false then kv.2 else 0).sum : Nat) / (shots : ℚ)

/-- `overlap_swap_test` of counters (qadence/overlap.py:234-249). -/
def countsSwapTest (cs : List (PyDict Bits Nat)) : Except PyErr (List ℚ) := do
  let (_, shots) ← firstCounter cs
  return (cs.map (fraction0 shots)).map fun p => 2 * p - 1

/-- `overlap_hadamard_test` of counters (qadence/overlap.py:281-300). -/
def countsHadamardTest (re im : List (PyDict Bits Nat)) : Except PyErr (List ℚ) := do
  let (_, shots) ← firstCounter re
  return List.zipWith (fun a b : ℚ => (2 * a - 1) ^ 2 + (2 * b - 1) ^ 2) (re.map (fraction0 shots)) (im.map (fraction0 shots))

/-! ## The class `Overlap` -/

/-- `OverlapMethod` (qadence/types.py:275-287) without JENSEN_SHANNON. -/
inductive Method
  | exact
  | computeUncompute
  | swapTest
  | hadamardTest
  deriving DecidableEq, Repr

/-- `Overlap(bra, ket, method=...).forward()` with `n_shots = 0` for one set of parameter values
(qadence/overlap.py:61-154, 303-325, 396-430). -/
noncomputable def exactValue (run : Nat → Block Gate → Except PyErr (List (List ℂ))) (ord : List Nat → List Nat) (m : Method)
    (bra ket : Circuit Gate) : Except PyErr (List ℝ) :=
  match m with
  | .exact => do
    let a ← run bra.nReg bra.block
    let b ← run ket.nReg ket.block
    return List.zipWith States.overlapExact a b
  | .computeUncompute => do
    let c ← computeUncompute ord bra ket
    valueComputeUncompute (← run c.nReg c.block)
  | .swapTest => do
    let c ← swapTest ord bra ket
    valueSwapTest (← run c.nReg c.block)
  | .hadamardTest => do
    let (re, im) ← hadamardTest ord bra ket
    let a ← run re.nReg re.block
    let b ← run im.nReg im.block
    valueHadamardTest a b

/-- The same with `n_shots > 0`; the EXACT method then fails with an AttributeError: lists of counters have no
`conj` (qadence/overlap.py:167). -/
def sampledValue (sample : Nat → Block Gate → Except PyErr (List (PyDict Bits Nat))) (ord : List Nat → List Nat) (m : Method)
    (bra ket : Circuit Gate) : Except PyErr (List ℚ) :=
  match m with
  | .exact => do
    let _ ← sample bra.nReg bra.block
    let _ ← sample ket.nReg ket.block
    .error .attributeError
  | .computeUncompute => do
    let c ← computeUncompute ord bra ket
    countsComputeUncompute (← sample c.nReg c.block)
  | .swapTest => do
    let c ← swapTest ord bra ket
    countsSwapTest (← sample c.nReg c.block)
  | .hadamardTest => do
    let (re, im) ← hadamardTest ord bra ket
    let a ← sample re.nReg re.block
    let b ← sample im.nReg im.block
    countsHadamardTest a b

end Qadence.Overlap
