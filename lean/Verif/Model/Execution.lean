import Verif.Model.Circuit

/-!
# `run`, `sample` and `expectation` for circuits, blocks and registers (`qadence/execution.py`)

The three functions dispatch on the type of their first argument. What the backend does with a circuit is a function `exec`
into results `T`; values, states and the other keyword arguments are passed on unchanged and are part of it. Blocks are digital,
or analog with global support. Registers are given by their number of qubits, which is positive.
-/

namespace Qadence.Execution

/-- The arguments with a registered implementation, and others. -/
inductive Arg (L : Type)
  | circuit (c : Circuit L)
  | register (n : ℕ) (b : Block L)
  | int (n : ℕ) (b : Block L)
  | block (b : Block L)
  | globalBlock
  | other

/-- Sizes and supports of leaves, and the order of sets. -/
structure Ctx (L : Type) where
  supp : L → List ℕ
  nq : L → Except PyErr ℕ
  ord : List ℕ → List ℕ

/-- `_n_qubits_block` (qadence/execution.py:24-31) for blocks with local support. -/
def nQubitsBlock {L : Type} (x : Ctx L) (b : Block L) : Except PyErr ℕ := b.nQubits x.supp x.nq x.ord

/-- `run(QuantumCircuit(register, block))` (qadence/execution.py:88-95, 168-175, 274-292). -/
def onRegister {L T : Type} (x : Ctx L) (exec : Circuit L → Except PyErr T) (n : ℕ) (b : Block L) : Except PyErr T := do
  let c ← Circuit.new x.supp x.nq x.ord n [b]
  exec c

/-- The dispatch of `run`, `sample` and `expectation` without the version for lists
(qadence/execution.py:34-101, 112-181, 184-300). -/
def dispatch {L T : Type} (x : Ctx L) (exec : Circuit L → Except PyErr T) : Arg L → Except PyErr T
  | .circuit c => exec c
  | .register n b => onRegister x exec n b
  | .int n b => onRegister x exec n b
  | .block b => do
    let n ← nQubitsBlock x b
    onRegister x exec n b
  | .globalBlock => .error .valueError
  | .other => .error .valueError

/-- The loop of `run` for lists (qadence/execution.py:104-109). `results` is a tuple, and `results += run(c)` for a tensor a
`TypeError`, because neither tuples nor tensors can add the other. -/
def runLoop {L T : Type} (x : Ctx L) (exec : Circuit L → Except PyErr T) : List (Arg L) → List T → Except PyErr (List T)
  | [], results => .ok results
  | c :: _, _ => do
    let _ ← dispatch x exec c
    .error .typeError

/-- `torch.concat` refuses empty tuples. -/
def concat {T : Type} (join : List T → T) : List T → Except PyErr T
  | [] => .error .runtimeError
  | rs => .ok (join rs)

/-- `run` for a list (qadence/execution.py:104-109). -/
def runList {L T : Type} (x : Ctx L) (exec : Circuit L → Except PyErr T) (join : List T → T) (cs : List (Arg L)) :
    Except PyErr T := do
  let rs ← runLoop x exec cs []
  concat join rs

/-- The functions of the module. -/
inductive Fn
  | run | sample | expectation
  deriving DecidableEq

/-- Differentiation modes. -/
inductive Diff
  | ad | gpsr | adjoint
  deriving DecidableEq

/-- The mode given to `backend_factory` (qadence/execution.py:74-77, 153-156, 251); `given` is the argument of `expectation`. -/
def diffMode (f : Fn) (pyqtorch : Bool) (given : Option Diff) : Option Diff :=
  match f with
  | .expectation => given
  | _ => if pyqtorch then some .ad else none

/-- `_use_gate_params` (qadence/extensions.py:133-137). -/
def useGateParams (pyqtorch : Bool) (d : Option Diff) : Bool := if pyqtorch then d != some .ad else true

/-- Whether the backend is called outside `no_grad` (qadence/execution.py:79-85, 158-165, 266-271). -/
def withGrad (f : Fn) (given : Option Diff) : Bool :=
  match f with
  | .run => false
  | .sample => true
  | .expectation => given.isSome

end Qadence.Execution
