import Mathlib.Data.Complex.Basic
import Verif.Model.Bits
import Verif.Model.Circuit
import Verif.Model.Hamiltonian
import Verif.Model.Passes

/-!
# Measurements (`qadence/measurements/utils.py`, `tomography.py`, `samples.py`)

Bitstrings are lists of booleans, counters are dictionaries from bitstrings to numbers of shots. Floating point numbers
are rational or complex numbers.
-/

namespace Qadence.Measure

/-- `a + b` for `collections.Counter`: only positive counts are kept. -/
def counterAdd (a b : PyDict Bits ℕ) : PyDict Bits ℕ :=
  (a.map fun kv => (kv.1, kv.2 + (b.get? kv.1).getD 0)).filter (fun kv => 0 < kv.2) ++
    b.filter (fun kv => (a.get? kv.1).isNone && decide (0 < kv.2))

/-- `k[i]`. -/
def bitAt (k : Bits) (i : ℕ) : Except PyErr Bool :=
  match k[i]? with
  | some b => .ok b
  | none => .error .indexError

/-- `"".join([k[i] for i in support])` (qadence/measurements/utils.py:55). -/
def restrict (support : List ℕ) (k : Bits) : Except PyErr Bits := support.mapM (bitAt k)

/-- The marginal counter of one sample (qadence/measurements/utils.py:53-56); `sample[k]` is the value of the item.
`reduce` of an empty list raises a TypeError. -/
def marginal (support : List ℕ) (sample : PyDict Bits ℕ) : Except PyErr (PyDict Bits ℕ) := do
  let singles ← sample.mapM (fun kv => do
    let k ← restrict support kv.1
    return [(k, kv.2)])
  match singles with
  | [] => .error .typeError
  | c :: cs => return cs.foldl counterAdd c

/-- `get_counts` (qadence/measurements/utils.py:43-59). -/
def getCounts (samples : List (PyDict Bits ℕ)) (support : List ℕ) : Except PyErr (List (PyDict Bits ℕ)) :=
  samples.mapM (marginal support)

/-- `count * PARITY ** (np.sum([int(bit) for bit in bitstring]))` summed over a counter
(qadence/measurements/utils.py:76-78). -/
def paritySum (counter : PyDict Bits ℕ) : ℚ :=
  (counter.map fun kv => (kv.2 : ℚ) * (-1) ^ (kv.1.map Bool.toNat).sum).sum

/-- `empirical_average` (qadence/measurements/utils.py:62-80). The number of shots is the one of the first counter. numpy
returns nan for zero shots; this is represented as an error. -/
def empiricalAverage (samples : List (PyDict Bits ℕ)) (support : List ℕ) : Except PyErr (List ℚ) := do
  let counters ← getCounts samples support
  match counters with
  | [] => .error .indexError
  | c :: _ =>
    let nShots : ℕ := (c.map Prod.snd).sum
    if nShots = 0 then .error .zeroDivisionError
    else return counters.map (fun c => paritySum c / nShots)

/-- `getattr(block, "blocks", None)`, a list with the block itself if there are none
(qadence/measurements/utils.py:35-36; composite blocks and controlled operations have the attribute). -/
def innerBlocks : Block Gate → List (Block Gate)
  | .comp _ bs _ => bs
  | .leaf (.control _ _ g) _ => [.leaf g none]
  | .leaf g t => [.leaf g t]
  | .scale b s t => [.scale b s t]

/-- `isinstance(block, type(op))` for an operation without parameters. -/
def isFixed (g : FixedGate) : Block Gate → Bool
  | .leaf (.fixed g' _) _ => g' = g
  | _ => false

/-- `block.qubit_support[0]`. -/
def firstQubit (ord : List ℕ → List ℕ) (b : Block Gate) : Except PyErr ℕ :=
  match b.support Gate.supp ord with
  | q :: _ => .ok q
  | [] => .error .indexError

/-- `get_qubit_indices_for_op` (qadence/measurements/utils.py:24-40). -/
def qubitIndicesForOp (ord : List ℕ → List ℕ) (term : Block Gate) (op : Option FixedGate) : Except PyErr (List ℕ) :=
  ((innerBlocks term).filter (fun b => match op with
    | none => true
    | some g => isFixed g b)).mapM (firstQubit ord)

/-- `gate(index) * H(index)` (qadence/measurements/utils.py:123, qadence/blocks/abstract.py:82-84). -/
def rotation (g : FixedGate) (q : ℕ) : Block Prim :=
  Block.chainOf [.leaf (.gate (.fixed g q) none) none, .leaf (.gate (.fixed .H q) none) none]

/-- `rotate` (qadence/measurements/utils.py:107-125). -/
def rotate (ord : List ℕ → List ℕ) (c : Circuit Prim) (term : Block Gate) : Except PyErr (Circuit Prim) := do
  let xs ← qubitIndicesForOp ord term (some .X)
  let ys ← qubitIndicesForOp ord term (some .Y)
  Circuit.new (Prim.supp ord) (Prim.nQubits ord) ord c.nReg
    [Block.chainOf (c.block :: (xs.map (rotation .I) ++ ys.map (rotation .SDagger)))]

mutual
/-- `is_identity` (qadence/blocks/abstract.py:332-344). -/
def isIdentity : Block Gate → Bool
  | .comp _ bs _ => isIdentityAll bs
  | .scale b _ _ => isIdentity b
  | .leaf (.fixed .I _) _ => true
  | .leaf _ _ => false
/-- `all([b.is_identity for b in blocks])`. -/
def isIdentityAll : List (Block Gate) → Bool
  | [] => true
  | b :: bs => isIdentity b && isIdentityAll bs
end

mutual
/-- `_is_diag_pauli` (qadence/blocks/abstract.py:315-330). -/
def isDiagPauli : Block Gate → Bool
  | .comp k bs t => Block.isQubitHamiltonian (.comp k bs t) && isDiagPauliAll bs
  | .scale b s t => Block.isQubitHamiltonian (.scale b s t) && isDiagPauli b
  | .leaf (.fixed .Z _) _ => true
  | .leaf (.fixed .I _) _ => true
  | .leaf _ _ => false
/-- `all([b._is_diag_pauli for b in blocks])`. -/
def isDiagPauliAll : List (Block Gate) → Bool
  | [] => true
  | b :: bs => isDiagPauli b && isDiagPauliAll bs
end

/-- `torch.sum(torch.stack(tensors), axis=0)` on vectors: an empty list and vectors of different lengths raise a
RuntimeError. -/
noncomputable def stackSum : List (List ℂ) → Except PyErr (List ℂ)
  | [] => .error .runtimeError
  | v :: vs => if vs.all (fun w => w.length = v.length) then
      .ok (vs.foldl (fun acc w => List.zipWith (· + ·) acc w) v)
    else .error .runtimeError

/-- `estim_values * evaluate(pauli_term[1])`. -/
noncomputable def scaleBy (value : ℂ) (xs : List ℚ) : List ℂ := xs.map (fun x : ℚ => (x : ℂ) * value)

/-- One term of `iterate_pauli_decomposition` (qadence/measurements/utils.py:151-180). `value` is `evaluate`, `sample` is
`backend.sample(backend.circuit(...), ...)` with the remaining arguments. The value of an identity term is a tensor with
one entry. -/
noncomputable def estimateTerm (ord : List ℕ → List ℕ) (value : Expr → ℂ) (sample : Circuit Prim → List (PyDict Bits ℕ))
    (c : Circuit Prim) (term : Block Gate × Expr) : Except PyErr (List ℂ) :=
  if isIdentity term.1 then .ok [value term.2]
  else do
    let support ← qubitIndicesForOp ord term.1 none
    let rotated ← rotate ord c term.1
    let avg ← empiricalAverage (sample rotated) support
    return scaleBy (value term.2) avg

/-- `iterate_pauli_decomposition` (qadence/measurements/utils.py:128-184). -/
noncomputable def iteratePauli (ord : List ℕ → List ℕ) (value : Expr → ℂ) (sample : Circuit Prim → List (PyDict Bits ℕ))
    (c : Circuit Prim) (terms : List (Block Gate × Expr)) : Except PyErr (List ℂ) := do
  let vals ← terms.mapM (estimateTerm ord value sample c)
  stackSum vals

/-- Body of the loop of the tomography protocol (qadence/measurements/tomography.py:53-66): the estimate of one
observable for every element of the batch. -/
noncomputable def tomography (ord : List ℕ → List ℕ) (value : Expr → ℂ) (sample : Circuit Prim → List (PyDict Bits ℕ))
    (c : Circuit Prim) (observable : Block Gate) : Except PyErr (List ℂ) :=
  iteratePauli ord value sample c (Block.unroll observable)

/-- `pauli_z_expectation` (qadence/measurements/utils.py:83-104). -/
noncomputable def pauliZExpectation (ord : List ℕ → List ℕ) (value : Expr → ℂ) (terms : List (Block Gate × Expr))
    (samples : List (PyDict Bits ℕ)) : Except PyErr (List ℂ) := do
  let vals ← terms.mapM (fun term => do
    let support ← qubitIndicesForOp ord term.1 none
    let avg ← empiricalAverage samples support
    return scaleBy (value term.2) avg)
  stackSum vals

/-- `compute_expectation` from samples (qadence/measurements/samples.py:13-39). -/
noncomputable def samplesExpectation (ord : List ℕ → List ℕ) (value : Expr → ℂ) (observables : List (Block Gate))
    (samples : List (PyDict Bits ℕ)) : Except PyErr (List (List ℂ)) :=
  observables.mapM (fun obs =>
    if !isDiagPauli obs || isIdentity obs then .error .typeError
    else pauliZExpectation ord value (Block.unroll obs) samples)

end Qadence.Measure
