import Verif.Model.DAQC
import Verif.Model.Hamiltonian
import Verif.Model.Passes

/-!
# Named Hamiltonians and configured observables

`qadence/constructors/hamiltonians.py:208-365`, `qadence/ml_tools/constructors.py:710-743`.
-/

namespace Qadence.Obs

open Block

/-- A `register` argument: a number of qubits or a register. -/
inductive RegArg
  | number (n : ℕ)
  | register (r : Register)

/-- `register if isinstance(register, Register) else Register(register)` (qadence/constructors/hamiltonians.py:135,
qadence/register.py:73): the complete graph for a number. `pos` are the coordinates of the nodes. -/
def RegArg.get (pos : ℕ → ℕ → Option (List ℝ)) : RegArg → Register
  | .number n => ⟨(List.range n).map (fun i => (i, pos n i)), DAQC.allToAll n⟩
  | .register r => r

/-- `register if isinstance(register, int) else register.n_qubits` (qadence/ml_tools/constructors.py:713). -/
def RegArg.size : RegArg → ℕ
  | .number n => n
  | .register r => r.nQubits

/-- `total_magnetization` (qadence/constructors/hamiltonians.py:210-211). -/
def totalMagnetization (ord : List ℕ → List ℕ) (pos : ℕ → ℕ → Option (List ℝ)) (n : ℕ) (z : Strength) :
    Except PyErr (Block Gate) :=
  hamiltonianFactory ord ((RegArg.number n).get pos) { detuning := some .Z, detuningStrength := z }

/-- The list of interaction strengths (qadence/constructors/hamiltonians.py:219-223); `zz` is the indexing of the array. -/
def zzStrength (n : ℕ) (zz : Option (ℕ → ℕ → Except PyErr Expr)) : Except PyErr Strength :=
  match zz with
  | none => .ok .default
  | some f => do
    let l ← (DAQC.allToAll n).mapM (fun e => f e.1 e.2)
    return .array l

/-- `zz_hamiltonian` (qadence/constructors/hamiltonians.py:214-224). -/
def zzHamiltonian (ord : List ℕ → List ℕ) (pos : ℕ → ℕ → Option (List ℝ)) (n : ℕ) (z : Strength)
    (zz : Option (ℕ → ℕ → Except PyErr Expr)) : Except PyErr (Block Gate) := do
  let s ← zzStrength n zz
  hamiltonianFactory ord ((RegArg.number n).get pos)
    { interaction := some .ZZ, detuning := some .Z, interactionStrength := s, detuningStrength := z }

/-- `ising_hamiltonian` (qadence/constructors/hamiltonians.py:227-235). -/
def isingHamiltonian (ord : List ℕ → List ℕ) (pos : ℕ → ℕ → Option (List ℝ)) (n : ℕ) (x z : Strength)
    (zz : Option (ℕ → ℕ → Except PyErr Expr)) : Except PyErr (Block Gate) := do
  let a ← zzHamiltonian ord pos n z zz
  let b ← hamiltonianFactory ord ((RegArg.number n).get pos) { detuning := some .X, detuningStrength := x }
  a.add' Gate.arith (.block b)

/-- What may be given as scale or shift: a Python or numpy number, another number (a tensor with one element), the
name of a parameter, a parameter, an expression. -/
inductive PArg
  | num (v : ℚ)
  | tensor (v : ℚ)
  | name (s : String)
  | param (s : String) (trainable : Bool)
  | expr (e : Expr)

/-- `is_numeric` (qadence/constructors/hamiltonians.py:238-239). -/
def PArg.isNumeric : PArg → Bool
  | .num _ => true
  | _ => false

/-- The result of `Parameter(...)`: an expression and, if it is a `Parameter`, its attribute `trainable`. -/
structure PVal where
  expr : Expr
  trainable : Option Bool
  deriving DecidableEq

/-- `Parameter(a, trainable=t)` or `Parameter(a)` (qadence/parameters.py:99-128). -/
def parameterOf (t : Option Bool) : PArg → PVal
  | .num v => ⟨.num v 0, none⟩
  | .tensor v => ⟨.num v 0, none⟩
  | .param s b => ⟨.var s, some b⟩
  | .expr e => ⟨e, none⟩
  | .name s => ⟨.var s, some (t.getD true)⟩

/-- The arguments of `ObservableConfig` (qadence/constructors/hamiltonians.py:245-289). -/
structure ConfigArgs where
  interaction : Option Interact := none
  detuning : Option Detuning := none
  scale : PArg := .num 1
  shift : PArg := .num 0
  trainableTransform : Option Bool := none
  tag : Option String := none

/-- An `ObservableConfig` after its initialisation. -/
structure Config where
  interaction : Option Interact
  detuning : Option Detuning
  scale : PVal
  shift : PVal
  tag : Option String

/-- `ObservableConfig.__post_init__` (qadence/constructors/hamiltonians.py:291-309). -/
def ConfigArgs.init (a : ConfigArgs) : Except PyErr Config := do
  if a.interaction.isNone && a.detuning.isNone then .error .valueError
  if a.scale.isNumeric && a.shift.isNumeric && a.trainableTransform.isSome then .error .assertionError
  return ⟨a.interaction, a.detuning, parameterOf a.trainableTransform a.scale,
    parameterOf a.trainableTransform a.shift, a.tag⟩

/-- `_global_identity` (qadence/ml_tools/constructors.py:710-714). -/
def globalIdentity (ord : List ℕ → List ℕ) (r : RegArg) : Except PyErr (Block Gate) :=
  kronOf Gate.supp ord ((List.range r.size).map (ofFixed .I))

/-- `create_observable` (qadence/ml_tools/constructors.py:717-743). -/
def createObservable (ord : List ℕ → List ℕ) (pos : ℕ → ℕ → Option (List ℝ)) (r : RegArg) (c : Config) :
    Except PyErr (Block Gate) := do
  let one ← globalIdentity ord r
  let shifting ← scaledTerm c.shift.expr one
  let ham ← hamiltonianFactory ord (r.get pos) { interaction := c.interaction, detuning := c.detuning }
  let scaled ← scaledTerm c.scale.expr ham
  let obs := addOf [shifting, scaled]
  match c.tag with
  | some t => return obs.setTag (some t)
  | none => return obs

/-- `total_magnetization_config` (qadence/constructors/hamiltonians.py:312-323). -/
def totalMagnetizationConfig (scale shift : PArg) (t : Option Bool) : ConfigArgs :=
  { detuning := some .Z, scale := scale, shift := shift, trainableTransform := t, tag := some "Total Magnetization" }

/-- `zz_hamiltonian_config` (qadence/constructors/hamiltonians.py:326-338). -/
def zzHamiltonianConfig (scale shift : PArg) (t : Option Bool) : ConfigArgs :=
  { interaction := some .ZZ, detuning := some .Z, scale := scale, shift := shift, trainableTransform := t,
    tag := some "ZZ Hamiltonian" }

/-- `ZZ_Z_hamiltonian` (qadence/constructors/hamiltonians.py:347-355). -/
def zzz (ord : List ℕ → List ℕ) (i j : ℕ) : Except PyErr (Block Gate) := do
  let result ← (ofFixed .Z i).matmul Gate.supp ord (.block (ofFixed .Z j))
  if i = 0 then result.iadd Gate.arith (.block (ofFixed .Z j))
  else if i = 1 ∧ j = 2 then result.iadd Gate.arith (.block (ofFixed .Z 0))
  else return result

/-- `ising_hamiltonian_config` (qadence/constructors/hamiltonians.py:341-364). -/
def isingHamiltonianConfig (ord : List ℕ → List ℕ) (scale shift : PArg) (t : Option Bool) : ConfigArgs :=
  { interaction := some (.custom (zzz ord)), detuning := some .X, scale := scale, shift := shift,
    trainableTransform := t, tag := some "Ising Hamiltonian" }

end Qadence.Obs
