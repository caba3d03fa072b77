import Mathlib.LinearAlgebra.Matrix.NonsingularInverse
import Verif.Model.Gate
import Verif.Model.Dagger
import Verif.Model.Hamiltonian
import Verif.Model.Passes

/-!
# The digital-analog transform (`qadence/constructors/daqc/`)

Couplings and times are rational numbers (every float is one). Tensors are functions of their indices, accesses out of
bounds raise. `evaluate` of a coefficient is the argument `value`.
-/

namespace Qadence.DAQC

open Block

/-- `GenDAQC` (qadence/types.py). -/
inductive GenType
  | ZZ | NN
  deriving DecidableEq, Repr

/-- `_ix_map` (qadence/constructors/daqc/utils.py:15-17); `0.5 * a * (a + 1)` is a whole number. -/
def ixMap (n a b : ℤ) : ℤ := n * (a - 1) - a * (a + 1) / 2 + b

/-- `int(0.5 * n_qubits * (n_qubits - 1))`. -/
def flatSize (n : ℕ) : ℕ := n * (n - 1) / 2

/-- The loop `for m in range(2, n_qubits + 1): for n in range(1, m)`. -/
def pairs (n : ℕ) : List (ℕ × ℕ) :=
  (List.range' 2 (n - 1)).flatMap fun m => (List.range' 1 (m - 1)).map fun k => (k, m)

/-- Position `_ix_map(n_qubits, n, m) - 1` of a pair of the loop; never negative (`C45_ix_map`). -/
def pos (n : ℕ) (p : ℕ × ℕ) : ℕ := (ixMap n p.1 p.2 - 1).toNat

/-- `_k_d` (qadence/constructors/daqc/utils.py:10-12). -/
def kd (a b : ℕ) : ℕ := if a = b then 1 else 0

/-- `matrix_M_ix` (qadence/constructors/daqc/utils.py:24-25). -/
def sign (j k n m : ℕ) : ℚ := (-1) ^ (kd n j + kd n k + kd m j + kd m k)

/-- `M[i, j] = v`. -/
def set2 (M : ℕ → ℕ → ℚ) (i j : ℕ) (v : ℚ) : ℕ → ℕ → ℚ := fun a b => if a = i ∧ b = j then v else M a b

/-- `_build_matrix_M` (qadence/constructors/daqc/utils.py:20-35): `jk` is the pair of the outer loops, `nm` the one of
the inner loops. -/
def signMatrix (n : ℕ) : ℕ → ℕ → ℚ :=
  ((pairs n).flatMap fun jk => (pairs n).map fun nm => (jk, nm)).foldl
    (fun M q => set2 M (pos n q.2) (pos n q.1) (sign q.1.1 q.1.2 q.2.1 q.2.2)) (fun _ _ => 0)

/-- Indexing of a one-dimensional tensor; negative indices count from the end. -/
def index (size : ℕ) (i : ℤ) : Except PyErr ℕ :=
  if 0 ≤ i ∧ i < size then .ok i.toNat
  else if i < 0 ∧ -(size : ℤ) ≤ i then .ok (i + size).toNat
  else .error .indexError

/-- `g_jk_list`, `g_jk_mat` and the lists `gen_type_Z`, `gen_type_N` (one list of types). -/
structure Parse where
  flat : ℕ → ℚ
  mat : ℕ → ℕ → ℚ
  types : List GenType

/-- The loop over the parts of a kron (qadence/constructors/daqc/gen_parser.py:58-69); the state of `N` is not looked
at. -/
def opType : Block Gate → Except PyErr GenType
  | .leaf (.fixed .Z _) _ => .ok .ZZ
  | .leaf (.fixed (.N _) _) _ => .ok .NN
  | _ => .error .valueError

/-- The entries of `g_jk_list` and `g_jk_mat` (qadence/constructors/daqc/gen_parser.py:71-84). -/
def addCoupling (n : ℕ) (st : Parse) (types : List GenType) (support : List ℕ) (g : ℚ) : Except PyErr Parse :=
  match support with
  | [j, k] => do
    let i ← index (flatSize n) (ixMap n (j + 1) (k + 1) - 1)
    if j < n ∧ k < n then
      return { flat := Function.update st.flat i (st.flat i + g)
               mat := fun a b => if (a = j ∧ b = k) ∨ (a = k ∧ b = j) then st.mat a b + g else st.mat a b
               types := st.types ++ types }
    else .error .indexError
  | _ => .error .valueError

/-- `isinstance(scale, Parameter)`. -/
def isParameter : Expr → Bool
  | .var _ => true
  | _ => false

/-- One term of the loop of `_parse_generator` (qadence/constructors/daqc/gen_parser.py:43-84). `abs(scale) < zero_tol` of
an expression with symbols raises a TypeError. -/
def parseTerm (ord : List ℕ → List ℕ) (value : Expr → ℚ) (n : ℕ) (tol : ℚ) (st : Parse) (t : Block Gate × Expr) :
    Except PyErr Parse :=
  if isParameter t.2 then .error .typeError
  else match t.1 with
    | .comp .kron bs tag => do
      let types ← bs.mapM opType
      addCoupling n st types (support Gate.supp ord (.comp .kron bs tag)) (value t.2)
    | _ => if t.2.isNumber ∧ |value t.2| < tol then .ok st else .error .typeError

/-- `_parse_generator` (qadence/constructors/daqc/gen_parser.py:18-101). -/
def parse (ord : List ℕ → List ℕ) (value : Expr → ℚ) (n : ℕ) (gen : Block Gate) (tol : ℚ) :
    Except PyErr ((ℕ → ℚ) × (ℕ → ℕ → ℚ) × GenType) := do
  let st ← (unroll gen).foldlM (parseTerm ord value n tol) ⟨fun _ => 0, fun _ _ => 0, []⟩
  let type ← if st.types.all (· = .ZZ) && !st.types.isEmpty then .ok GenType.ZZ
    else if st.types.all (· = .NN) && !st.types.isEmpty then .ok .NN
    else .error .valueError
  return (fun i => if st.flat i = 0 then tol else st.flat i, st.mat, type)

/-- `_check_compatibility` (qadence/constructors/daqc/gen_parser.py:104-117). -/
def compatible (n : ℕ) (target build : ℕ → ℚ) (tol : ℚ) : Bool :=
  (List.range (flatSize n)).all fun i => !(decide (|target i| > tol) && decide (|build i| ≤ tol))

/-- `torch.linalg.solve(matrix_M, rhs)`; a singular matrix raises. -/
noncomputable def solve (size : ℕ) (M : ℕ → ℕ → ℚ) (rhs : ℕ → ℚ) : Except PyErr (ℕ → ℚ) :=
  let A : Matrix (Fin size) (Fin size) ℚ := fun i j => M i j
  if A.det = 0 then .error .runtimeError
  else .ok fun i => if h : i < size then A⁻¹.mulVec (fun j => rhs j) ⟨i, h⟩ else 0

/-- A number as an expression. -/
def num (x : ℚ) : Expr := .num x 0

/-- `_nn_phase_and_detunings` (qadence/constructors/daqc/daqc.py:225-240). -/
def phaseAndDetunings (ord : List ℕ → List ℕ) (n : ℕ) (mat : ℕ → ℕ → ℚ) : Except PyErr (Block Gate × Block Gate) := do
  let shift : ℚ := (((List.range n).map fun j => ((List.range n).map (mat j)).sum).sum) / 8
  let ids ← kronOf Gate.supp ord ((List.range n).map fun i => .leaf (.fixed .I i) none)
  return (scaleOf ids (num shift),
    addOf ((List.range n).map fun i =>
      scaleOf (.leaf (.fixed (.N true) i) none) (num (-(((List.range n).map fun j => mat j i).sum / 2)))))

/-- `HamEvo(gen, t)`. -/
def evo (gen : Block Gate) (t : ℚ) : Block Prim := .leaf (.hamEvo gen (num t)) none

/-- `HamEvo(gen, t).dagger()` (qadence/operations/ham_evo.py, see `Model/Dagger.lean`). -/
def evoDagger (gen : Block Gate) (t : ℚ) : Block Prim := .leaf (Prim.dagger (.hamEvo gen (num t))) none

/-- `X(i)`. -/
def xGate (i : ℕ) : Block Prim := .leaf (.gate (.fixed .X i) none) none

/-- The loop of slices (qadence/constructors/daqc/daqc.py:176-201); `detuning` is `h_sq_build` for an NN build
Hamiltonian. -/
def slices (ord : List ℕ → List ℕ) (n : ℕ) (t : ℕ → ℚ) (tol : ℚ) (build : Block Gate) (detuning : Option (Block Gate)) :
    Except PyErr (List (Block Prim)) :=
  ((pairs n).filter fun p => decide (|t (pos n p)| > tol)).mapM fun p => do
    let x ← kronOf (Prim.supp ord) ord [xGate (p.1 - 1), xGate (p.2 - 1)]
    let time := t (pos n p)
    match detuning with
    | some h => return chainOf [x, evo h time, evo build time, x]
    | none => return chainOf [x, evo build time, x]

/-- The complete graph of `Register(n)`; coordinates are irrelevant here. -/
def allToAll (n : ℕ) : List (ℕ × ℕ) := (List.range n).flatMap fun i => (List.range' (i + 1) (n - 1 - i)).map fun j => (i, j)

/-- The default build Hamiltonian `hamiltonian_factory(n_qubits, interaction=Interaction.NN)`
(qadence/constructors/daqc/daqc.py:122-123; `Model/Hamiltonian.lean`). -/
def defaultBuild (ord : List ℕ → List ℕ) (n : ℕ) : Except PyErr (Block Gate) := do
  let terms ← interactionTerms ord (some .NN) (List.replicate (allToAll n).length (.num 1 0)) (allToAll n)
  return addOf terms

/-- `daqc_transform` (qadence/constructors/daqc/daqc.py:19-222). `sdaqc` is `strategy == Strategy.SDAQC`. A quotient by 0
(infinity or nan in torch, only possible for `zero_tol = 0`) raises in the model. -/
noncomputable def transform (ord : List ℕ → List ℕ) (value : Expr → ℚ) (n : ℕ) (target : Block Gate) (tf : ℚ)
    (build : Option (Block Gate)) (tol : ℚ) (sdaqc ignorePhases : Bool) : Except PyErr (Block Prim) := do
  if !sdaqc then .error .notImplementedError
  if n = 4 then .error .notImplementedError
  let build ← match build with
    | some b => .ok b
    | none => defaultBuild ord n
  if !isQubitHamiltonian target || !isQubitHamiltonian build then .error .valueError
  let (gT, matT, typeT) ← parse ord value n target 0
  let (gB, matB, typeB) ← parse ord value n build tol
  let hB ← if typeB = .NN then some <$> phaseAndDetunings ord n matB else .ok none
  let hT ← if typeT = .NN then some <$> phaseAndDetunings ord n matT else .ok none
  let tStar : ℚ := if typeB = .ZZ ∧ typeT = .NN then tf / 4
    else if typeB = .NN ∧ typeT = .ZZ then 4 * tf else tf
  if !compatible n gT gB tol then .error .valueError
  if (List.range (flatSize n)).any (fun i => decide (gB i = 0)) then .error .zeroDivisionError
  let s ← solve (flatSize n) (signMatrix n) (fun i => gT i / gB i)
  let t : ℕ → ℚ := fun i => s i * tStar
  let parts ← slices ord n t tol build (hB.map Prod.snd)
  let circuit := chainOf parts
  let circuit := match hT with
    | some h => chainOf [evoDagger h.2 tf, circuit]
    | none => circuit
  if ignorePhases then return circuit
  let circuit := match hB with
    | some h => chainOf [evo h.1 ((List.range (flatSize n)).map t).sum, circuit]
    | none => circuit
  return match hT with
    | some h => chainOf [evoDagger h.1 tf, circuit]
    | none => circuit

end Qadence.DAQC
