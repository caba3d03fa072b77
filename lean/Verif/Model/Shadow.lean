import Mathlib.Analysis.SpecialFunctions.Log.Basic
import Verif.Model.Measure

/-!
# Classical shadows (`qadence/measurements/shadow.py`)

Rotation indices are numbers below 3, samples are lists of 1 and -1. Estimates are rational numbers. The random numbers and the
outcomes of the backend are arguments. Noise is not modelled.
-/

namespace Qadence.Shadow

open Measure

/-! ### Number of samples -/

/-- `isinstance(block, (X, Y, Z))`. -/
def isXYZ : Gate → Bool
  | .fixed .X _ => true
  | .fixed .Y _ => true
  | .fixed .Z _ => true
  | _ => false

/-- Weight of a term (qadence/measurements/shadow.py:49-61). A scale block is a `PrimitiveBlock`. -/
def termWeight : Block Gate → ℕ
  | .leaf g _ => if isXYZ g then 1 else 0
  | .scale _ _ _ => 0
  | .comp k bs t => (Block.primitiveBlocks (.comp k bs t)).countP isXYZ

/-- `max` of a list. -/
def pyMax : List ℕ → Except PyErr ℕ
  | [] => .error .valueError
  | x :: xs => .ok (xs.foldl max x)

/-- `_max_observable_weight` (qadence/measurements/shadow.py:35-62). -/
def maxObservableWeight (observable : Block Gate) : Except PyErr ℕ :=
  pyMax ((Block.unroll observable).map fun t => termWeight t.1)

/-- `maximal_weight` (qadence/measurements/shadow.py:65-67). -/
def maximalWeight (observables : List (Block Gate)) : Except PyErr ℕ := do
  let weights ← observables.mapM maxObservableWeight
  pyMax weights

/-- `round`: halves go to the even neighbour. -/
noncomputable def pyRound (x : ℝ) : ℤ :=
  if Int.fract x < 1 / 2 then ⌊x⌋
  else if 1 / 2 < Int.fract x then ⌊x⌋ + 1
  else if ⌊x⌋ % 2 = 0 then ⌊x⌋ else ⌊x⌋ + 1

open Classical in
/-- `round(3**max_k * 34.0 / accuracy**2)` (qadence/measurements/shadow.py:83). A missing option is `None`. -/
noncomputable def snapshotNumber (k : ℕ) : Option ℝ → Except PyErr ℤ
  | none => .error .typeError
  | some a => if a = 0 then .error .zeroDivisionError else .ok (pyRound (3 ^ k * 34 / a ^ 2))

open Classical in
/-- `round(2.0 * np.log(2.0 * len(observables) / confidence))` (qadence/measurements/shadow.py:84). The logarithm of a negative number
is nan, which `round` refuses. -/
noncomputable def groupNumber (L : ℕ) : Option ℝ → Except PyErr ℤ
  | none => .error .typeError
  | some c => if c = 0 then .error .zeroDivisionError
    else if c < 0 then .error .valueError
    else .ok (pyRound (2 * Real.log (2 * L / c)))

/-- `number_of_samples` (qadence/measurements/shadow.py:70-85). -/
noncomputable def numberOfSamples (observables : List (Block Gate)) (accuracy confidence : Option ℝ) : Except PyErr (ℤ × ℤ) := do
  let k ← maximalWeight observables
  let bigN ← snapshotNumber k accuracy
  let bigK ← groupNumber observables.length confidence
  return (bigN, bigK)

/-! ### Snapshots -/

/-- `pauli_rotations` (qadence/measurements/shadow.py:22-26). -/
def rotationFor : Fin 3 → ℕ → Option (Block Prim)
  | 0, q => some (.leaf (.gate (.fixed .H q) none) none)
  | 1, q => some (rotation .SDagger q)
  | 2, _ => none

/-- The circuit of one snapshot (`nested_operator_indexing`, `kron_if_non_empty`, `extract_operators` and
qadence/measurements/shadow.py:149-161). `native` is the case of PyQTorch, where the rotations act on the final state of the circuit.
Unless there are at least two qubits, the list of rotations itself is passed to `QuantumCircuit`, which asks it for `n_qubits`
or `qubit_support`. -/
def snapshotCircuit (ord : List ℕ → List ℕ) (native : Bool) (c : Circuit Prim) (ids : List (Fin 3)) :
    Except PyErr (Circuit Prim) := do
  let ops := ids.zipIdx.map fun p => rotationFor p.1 p.2
  let rots ← (if c.nReg > 1 then
      match ops.filterMap id with
      | [] => .ok none
      | bs => do
        let b ← Block.kronOf (Prim.supp ord) ord bs
        return some b
    else if ops.isEmpty then .ok none else .error .attributeError : Except PyErr (Option (Block Prim)))
  Circuit.new (Prim.supp ord) (Prim.nQubits ord) ord c.nReg (if native then rots.toList else c.block :: rots.toList)

/-- `1 - 2 * int(b_i)` (qadence/measurements/shadow.py:179-182). -/
def signs (bits : Bits) : List ℤ := bits.map fun b => 1 - 2 * (b.toNat : ℤ)

/-! ### Estimators -/

/-- `pauli_gates.index(type(p))`. -/
def pauliIndex : Block Gate → Except PyErr (Fin 3)
  | .leaf (.fixed .X _) _ => .ok 0
  | .leaf (.fixed .Y _) _ => .ok 1
  | .leaf (.fixed .Z _) _ => .ok 2
  | _ => .error .valueError

/-- The indices and columns to be compared (qadence/measurements/shadow.py:200-211), none for a single identity. -/
def target (ord : List ℕ → List ℕ) : Block Gate → Except PyErr (Option (List (Fin 3) × List ℕ))
  | .leaf g t =>
    if isFixed .I (.leaf g t) then .ok none
    else do
      let i ← pauliIndex (.leaf g t)
      return some ([i], g.supp)
  | .scale _ _ _ => .error .valueError
  | .comp k bs t => do
    let idx ← (bs.filter fun b => !isFixed .I b).mapM pauliIndex
    let indI ← qubitIndicesForOp ord (.comp k bs t) (some .I)
    return some (idx, (Block.support Gate.supp ord (.comp k bs t)).filter fun q => q ∉ indI)

/-- `row[support]`. (With numpy the columns are checked even if there are no rows.) -/
def pick {α : Type} (support : List ℕ) (row : List α) : Except PyErr (List α) :=
  support.mapM fun q => match row[q]? with
    | some x => .ok x
    | none => .error .indexError

/-- One row of `np.all(ids == obs_to_pauli_index, axis=1)`, with the broadcasting of numpy. -/
def rowMatches (idx row : List (Fin 3)) : Except PyErr Bool :=
  if row.length = idx.length then .ok (decide (row = idx))
  else match row, idx with
    | [a], _ => .ok (idx.all (· = a))
    | _, [i] => .ok (row.all (· = i))
    | _, _ => .error .valueError

/-- The estimator of one group (qadence/measurements/shadow.py:216-228). -/
def groupTrace (idx : List (Fin 3)) (support : List ℕ) (ids : List (List (Fin 3))) (samples : List (List ℤ)) : Except PyErr ℚ := do
  let flags ← ids.mapM fun row => do
    let r ← pick support row
    rowMatches idx r
  if flags.count true > 0 then
    let prods ← (((samples.zip flags).filter Prod.snd).map Prod.fst).mapM fun s => do
      let r ← pick support s
      return r.prod
    return (prods.sum : ℚ) / flags.count true
  else return 0

/-- `xs[k * floor : (k + 1) * floor]`. -/
def slice {α : Type} (floor k : ℕ) (xs : List α) : List α := (xs.drop (k * floor)).take floor

/-- `estimators` (qadence/measurements/shadow.py:186-229). `range(K)` is empty for negative `K`. -/
def estimators (ord : List ℕ → List ℕ) (bigN : ℕ) (bigK : ℤ) (ids : List (List (Fin 3))) (samples : List (List ℤ))
    (observable : Block Gate) : Except PyErr (List ℚ) := do
  match ← target ord observable with
  | none => return [1]
  | some (idx, support) =>
    if bigK = 0 then .error .zeroDivisionError
    else (List.range bigK.toNat).mapM fun k =>
      groupTrace idx support (slice (bigN / bigK.toNat) k ids) (slice (bigN / bigK.toNat) k samples)

/-- `torch.median`: the lower one of the two middle elements. The median of no elements is nan, represented as an error. -/
def lowerMedian (xs : List ℚ) : Except PyErr ℚ :=
  match (xs.mergeSort (fun a b => decide (a ≤ b)))[(xs.length - 1) / 2]? with
  | some x => .ok x
  | none => .error .valueError

/-- Estimate of one observable for one element of the batch (qadence/measurements/shadow.py:265-281); `value` gives the values of
the scaling factors. -/
noncomputable def estimate (ord : List ℕ → List ℕ) (value : Expr → ℂ) (bigN : ℕ) (bigK : ℤ) (ids : List (List (Fin 3)))
    (observable : Block Gate) (samples : List (List ℤ)) : Except PyErr ℂ := do
  let terms ← (Block.unroll observable).mapM fun t => do
    let xs ← estimators ord bigN bigK ids samples t.1
    let m ← lowerMedian xs
    return (m : ℂ) * value t.2
  return terms.sum

/-- `estimations` without the sampling (qadence/measurements/shadow.py:260-283), transposed at the end. -/
noncomputable def estimations (ord : List ℕ → List ℕ) (value : Expr → ℂ) (bigN : ℕ) (bigK : ℤ) (ids : List (List (Fin 3)))
    (batch : List (List (List ℤ))) (observables : List (Block Gate)) : Except PyErr (List (List ℂ)) := do
  let rows ← observables.mapM fun obs => batch.mapM (estimate ord value bigN bigK ids obs)
  return (List.range batch.length).map fun b => rows.map fun row => row.getD b 0

/-- `compute_expectation` up to the sampling (qadence/measurements/shadow.py:315-330, 248-250): the numbers of snapshots and of groups. The
`KeyError`s for missing options are created but not raised. -/
noncomputable def plan (observables : List (Block Gate)) (shadowSize : Option ℕ) (accuracy confidence : Option ℝ) :
    Except PyErr (ℤ × ℤ) := do
  let (bigN, bigK) ← numberOfSamples observables accuracy confidence
  return (match shadowSize with
    | none => bigN
    | some s => s, bigK)

end Qadence.Shadow
