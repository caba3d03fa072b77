import Verif.Model.Ansatz
import Verif.Model.Passes

/-!
# Digital decompositions (`qadence/decompose.py`, `qadence/operations/ham_evo.py`, `qadence/transpile/digitalize.py`)

Expressions are exact: the float `PI` is the symbol, times 0.1 and 0.5 are rational factors. `p2`, the float
`(4 - 4 ** (1/3)) ** -1`, is an argument. Warnings are not modelled, neither is the evaluation of the time in
`time_discretisation`, which only decides on a warning.
-/

namespace Qadence.Decompose

open Block Ansatz

/-- `b.qubit_support[0]`. -/
def firstQubit (ord : List ℕ → List ℕ) (b : Block Gate) : Except PyErr ℕ := item (support Gate.supp ord b) 0

/-- `change_to_z_basis` (qadence/decompose.py:24-42). -/
def toZBasis (ord : List ℕ → List ℕ) (sign : ℚ) (b : Block Gate) : Except PyErr (List (Block Prim)) := do
  let q ← firstQubit ord b
  return match b with
    | .leaf (.fixed .X _) _ => [gateBlock (.fixed .H q)]
    | .leaf (.fixed .Y _) _ => [gateBlock (.rot .RX q (.mul (.num (sign / 2) 0) .pi))]
    | _ => []

/-- `len(get_pauli_blocks(bl))` (qadence/blocks/utils.py:176-198). -/
def countPaulis (b : Block Gate) : ℕ := (primitiveBlocks b).countP fun g => (pauliName g).isSome

/-- `blist` (qadence/decompose.py:117-122): the parts of a block with at least two Pauli operations, otherwise the block
itself. Scale blocks can be iterated, but not indexed as done later. -/
def partsOf (b : Block Gate) : Except PyErr (List (Block Gate)) :=
  if countPaulis b ≥ 2 then
    match b with
    | .comp _ bs _ => .ok bs
    | _ => .error .typeError
  else .ok [b]

/-- `cnot_sequence` (qadence/decompose.py:126). -/
def ladder (a b : ℕ) : List (Block Prim) := (List.range' a (b - a)).map fun i => gateBlock (.cnot i (i + 1))

/-- One term of `decompose_pauli_exp` (qadence/decompose.py:113-145). -/
def expTerm (ord : List ℕ → List ℕ) (t : Expr) (bs : Block Gate × Expr) : Except PyErr (List (Block Prim)) := do
  let blist ← partsOf bs.1
  let indx ← blist.mapM (firstQubit ord)
  let fwd ← blist.mapM (toZBasis ord 1)
  let bkd ← blist.reverse.mapM (toZBasis ord (-1))
  match indx.min?, indx.max? with
  | some a, some b =>
    return fwd.flatten ++ ladder a b ++ [gateBlock (.rot .RZ b (.mul (.mul (.num 2 0) t) bs.2))] ++ (ladder a b).reverse ++
      bkd.flatten
  | _, _ => .error .valueError

/-- `decompose_pauli_exp` (qadence/decompose.py:105-147). -/
def pauliExp (ord : List ℕ → List ℕ) (t : Expr) (l : List (Block Gate × Expr)) : Except PyErr (List (Block Prim)) := do
  let ls ← l.mapM (expTerm ord t)
  return ls.flatten

/-- `LTSOrder` (qadence/types.py:132-140). -/
inductive Order
  | basic | st2 | st4
  deriving DecidableEq, Repr

/-- `l * k` of Python lists. -/
def times {α : Type} (k : ℕ) (l : List α) : List α := (List.replicate k l).flatten

/-- `t_delta` of `time_discretisation` (qadence/decompose.py:44-67) with the default of 10 steps. -/
def delta (t : Expr) : Expr := .mul t (.num (1 / 10) 0)

/-- The branch for order 2 of `lie_trotter_suzuki` (qadence/decompose.py:89-92). -/
def suzuki2 (ord : List ℕ → List ℕ) (t : Expr) (l : List (Block Gate × Expr)) : Except PyErr (List (Block Prim)) := do
  let outer ← pauliExp ord (.mul (delta t) (.num (1 / 2) 0)) l.dropLast
  match l.getLast? with
  | none => .error .indexError
  | some x => do
    let inner ← pauliExp ord (delta t) [x]
    return times 10 (outer ++ inner ++ outer.reverse)

/-- The branch for order 4 of `lie_trotter_suzuki` (qadence/decompose.py:94-100). -/
def suzuki4 (ord : List ℕ → List ℕ) (p2 : ℚ) (t : Expr) (l : List (Block Gate × Expr)) : Except PyErr (List (Block Prim)) := do
  let outer ← suzuki2 ord (.mul (delta t) (.num p2 0)) l
  let inner ← suzuki2 ord (.mul (.num (1 - 4 * p2) 0) (delta t)) l
  return times 10 (times 2 outer ++ inner ++ times 2 outer)

/-- `lie_trotter_suzuki` on a list of terms (qadence/decompose.py:70-102). -/
def trotter (ord : List ℕ → List ℕ) (p2 : ℚ) (t : Expr) (l : List (Block Gate × Expr)) : Order → Except PyErr (List (Block Prim))
  | .basic => pauliExp ord t l
  | .st2 => suzuki2 ord t l
  | .st4 => suzuki4 ord p2 t l

/-- The order used by `HamEvo.digital_decomposition` (qadence/operations/ham_evo.py:241-249): the result of
`block_is_commuting_hamiltonian` is ignored, only a TypeError keeps the requested order. -/
def effectiveOrder (gen : Block Gate) (order : Order) : Except PyErr Order :=
  match isCommutingHamiltonian gen with
  | .ok _ => .ok .basic
  | .error .typeError => .ok order
  | .error e => .error e

/-- `HamEvo.digital_decomposition` (qadence/operations/ham_evo.py:207-267) for a generator given by a block. -/
def digitalEvo (ord : List ℕ → List ℕ) (p2 : ℚ) (order : Order) (gen : Block Gate) (t : Expr) : Except PyErr (Block Prim) :=
  if isQubitHamiltonian gen then do
    let order ← effectiveOrder gen order
    let bs ← trotter ord p2 t (unroll gen) order
    return chainOf bs
  else .error .notImplementedError

/-- `U.digital_decomposition` (qadence/operations/parametric.py:197-203). -/
def digitalU (q : ℕ) (φ θ ω : Expr) : Block Prim :=
  chainOf [gateBlock (.rot .RZ q φ), gateBlock (.rot .RY q θ), gateBlock (.rot .RY q θ), gateBlock (.rot .RZ q ω)]

/-- A new block of the same kind (qadence/blocks/utils.py:43-49). -/
def construct (ord : List ℕ → List ℕ) : CKind → List (Block Prim) → Except PyErr (Block Prim)
  | .chain, bs => .ok (chainOf bs)
  | .kron, bs => kronOf (Prim.supp ord) ord bs
  | .add, bs => .ok (addOf bs)

mutual
/-- `digitalize` on blocks (qadence/transpile/digitalize.py:31-40). Scale blocks are not opened. -/
def digitalize (ord : List ℕ → List ℕ) (p2 : ℚ) (order : Order) : Block Prim → Except PyErr (Block Prim)
  | .comp k bs _ => do
    let bs' ← digitalizeAll ord p2 order bs
    construct ord k bs'
  | .leaf (.hamEvo gen t) _ => digitalEvo ord p2 order gen t
  | .leaf (.gate (.u q φ θ ω) _) _ => .ok (digitalU q φ θ ω)
  | .leaf l t => .ok (.leaf l t)
  | .scale b s t => .ok (.scale b s t)
/-- All parts. -/
def digitalizeAll (ord : List ℕ → List ℕ) (p2 : ℚ) (order : Order) : List (Block Prim) → Except PyErr (List (Block Prim))
  | [] => .ok []
  | b :: bs => do
    let b' ← digitalize ord p2 order b
    let bs' ← digitalizeAll ord p2 order bs
    return b' :: bs'
end

end Qadence.Decompose
