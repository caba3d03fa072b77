import Verif.Model.Ansatz
import Verif.Model.FeatureMap
import Verif.Model.Observable
import Verif.Model.RydbergHEA

/-!
# Circuits built from configurations

`AnsatzConfig` (`qadence/ml_tools/config.py:489-581`), `create_ansatz`, `_interleave_ansatz_in_fm` and the circuit of
`build_qnn_from_configs` (`qadence/ml_tools/constructors.py:374-707, 745-817`). The depth is a natural number (a negative one
is an empty `range`, like zero); the graph of `Register.circle` is an argument.
-/

namespace Qadence.QNNConfig

open Block Ansatz

/-- `AnsatzType` (qadence/types.py:172-180), or something else. -/
inductive AnsatzType
  | hea | iia | ala | other
  deriving DecidableEq, Repr

/-- `Strategy` (qadence/types.py:75-87). -/
inductive Strategy
  | digital | analog | sdaqc | bdaqc | rydberg
  deriving DecidableEq, Repr

/-- The value of the key `entangler`: a class of blocks or a block. -/
inductive EntArg
  | cls (e : Entangler)
  | ham (b : Block Gate)

/-- The dictionary `strategy_args`: the keys read by the constructors. -/
structure StrategyArgs where
  operations : Option (List RotGate) := none
  operation : Option (List RotGate) := none
  entangler : Option EntArg := none
  periodic : Option Bool := none
  addressableDetuning : Option Bool := none
  addressableDrive : Option Bool := none
  tunablePhase : Option Bool := none

/-- `AnsatzConfig` (qadence/ml_tools/config.py:489-565). -/
structure Config where
  depth : ℕ := 1
  type : AnsatzType := .hea
  strategy : Strategy := .digital
  args : StrategyArgs := {}
  blockQubits : Option ℕ := none
  pre : String := "theta"
  tag : Option String := none

/-- `AnsatzConfig.__post_init__` (qadence/ml_tools/config.py:567-581). -/
def Config.postInit (c : Config) : Except PyErr Unit :=
  if c.type = .iia ∧ c.strategy = .rydberg then .error .assertionError
  else if c.type = .ala ∧ c.strategy ≠ .digital then .error .assertionError
  else if c.type = .ala ∧ c.blockQubits.isNone then .error .assertionError
  else .ok ()

/-- What the tests of the digital hardware efficient and alternating ansätze see: a block is no supported class, the `TypeError`
of comparing it with one is turned into a `ValueError` (qadence/constructors/hea.py:247-253, ala.py:219-225). -/
def EntArg.digital : EntArg → Entangler
  | .cls e => e
  | .ham _ => .other

/-- `_create_iia_digital` (qadence/ml_tools/constructors.py:401-427). Comparing a block with the supported classes raises
`TypeError` in the first layer, after its left rotations (qadence/constructors/iia.py:143-160). -/
def iiaDigital (ord : List ℕ → List ℕ) (n : ℕ) (c : Config) : Except PyErr (Block Prim) :=
  let ops := c.args.operations.getD [.RX, .RY]
  match c.args.entangler.getD (.cls .CNOT) with
  | .cls e => iia ord n c.depth c.pre ops (.digital e (c.args.periodic.getD false))
  | .ham _ => if c.depth = 0 then .ok (chainOf []) else do
    let _ ← iiaLeft ord n 0 (c.pre ++ "_α") ops
    .error .typeError

/-- `_create_iia_sdaqc` (qadence/ml_tools/constructors.py:430-456). For a class the extraction of primitive blocks raises
`NotImplementedError` in the first layer (qadence/constructors/iia.py:143-193, qadence/blocks/utils.py:163-173). -/
def iiaSDAQC (ord : List ℕ → List ℕ) (n : ℕ) (c : Config) : Except PyErr (Block Prim) :=
  let ops := c.args.operations.getD [.RX, .RY]
  match c.args.entangler.getD (.cls .CNOT) with
  | .ham g => iia ord n c.depth c.pre ops (.sdaqc g)
  | .cls _ => if c.depth = 0 then .ok (chainOf []) else do
    let _ ← iiaLeft ord n 0 (c.pre ++ "_α") ops
    .error .notImplementedError

/-- `_create_iia` (qadence/ml_tools/constructors.py:459-485). -/
def createIIA (ord : List ℕ → List ℕ) (n : ℕ) (c : Config) : Except PyErr (Block Prim) :=
  match c.strategy with
  | .digital => iiaDigital ord n c
  | .sdaqc => iiaSDAQC ord n c
  | _ => .error .valueError

/-- `_create_hea_digital` (qadence/ml_tools/constructors.py:488-510). -/
def createHEADigital (ord : List ℕ → List ℕ) (n : ℕ) (c : Config) : Except PyErr (Block Prim) :=
  heaDigital ord n c.depth c.pre (List.range n) (c.args.periodic.getD false) (c.args.operations.getD [.RX, .RY, .RX])
    (c.args.entangler.getD (.cls .CNOT)).digital

/-- `_create_hea_sdaqc` (qadence/ml_tools/constructors.py:513-536): the default generator is built in any case,
on the complete graph of `num_qubits` nodes, whose coordinates do not matter. -/
def createHEASDAQC (ord : List ℕ → List ℕ) (n : ℕ) (c : Config) : Except PyErr (Block Prim) := do
  let nn ← hamiltonianFactory ord ((Obs.RegArg.number n).get fun _ _ => none) { interaction := some .NN }
  match c.args.entangler.getD (.ham nn) with
  | .ham g => heaSDAQC ord n c.depth c.pre (List.range n) (c.args.operations.getD [.RX, .RY, .RX]) g
  | .cls _ => .error .valueError

/-- The arguments of `rydberg_hea` (qadence/ml_tools/constructors.py:555-566). -/
def Config.rydberg (c : Config) : RydbergHEA.Args where
  layers := c.depth
  addressableDetuning := c.args.addressableDetuning.getD true
  addressableDrive := c.args.addressableDrive.getD false
  tunablePhase := c.args.tunablePhase.getD false
  additionalPrefix := some c.pre

/-- The register of the Rydberg ansatz (qadence/ml_tools/constructors.py:553). -/
def rydbergRegister (circle : ℕ → Register) : Obs.RegArg → Register
  | .number n => circle n
  | .register r => r

/-- `_create_hea` (qadence/ml_tools/constructors.py:569-598). -/
def createHEA (circle : ℕ → Register) (ord : List ℕ → List ℕ) (reg : Obs.RegArg) (c : Config) :
    Except PyErr (Block Prim) :=
  match c.strategy with
  | .digital => createHEADigital ord reg.size c
  | .sdaqc => createHEASDAQC ord reg.size c
  | .rydberg => RydbergHEA.rydbergHea ord (rydbergRegister circle reg) c.rydberg
  | _ => .error .valueError

/-- `_create_ala` (qadence/ml_tools/constructors.py:601-649): the depth is that of the default of `ala_digital`, the
operations are read from the key `operation`. Without a block size (excluded by `__post_init__`) a `range` up to `None` fails. -/
def createALA (ord : List ℕ → List ℕ) (n : ℕ) (c : Config) : Except PyErr (Block Prim) :=
  match c.strategy with
  | .digital => match c.blockQubits with
    | some m => alaDigital ord n m 1 c.pre (List.range n) (c.args.operation.getD [.RX, .RY, .RX])
        (c.args.entangler.getD (.cls .CNOT)).digital
    | none => .error .typeError
  | _ => .error .valueError

/-- `create_ansatz` (qadence/ml_tools/constructors.py:652-682). -/
def createAnsatz (circle : ℕ → Register) (ord : List ℕ → List ℕ) (reg : Obs.RegArg) (c : Config) :
    Except PyErr (Block Prim) :=
  match c.type with
  | .iia => createIIA ord reg.size c
  | .hea => createHEA circle ord reg c
  | .ala => createALA ord reg.size c
  | .other => .error .notImplementedError

/-- The configuration of an interleaved layer (qadence/ml_tools/constructors.py:390-396). -/
def Config.layer (c : Config) (i : ℕ) : Config :=
  { depth := 1, type := c.type, strategy := c.strategy, args := c.args, pre := "fm_" ++ toString i }

/-- `_ansatz_layer` (qadence/ml_tools/constructors.py:374-398): the new configuration is checked. -/
def ansatzLayer (circle : ℕ → Register) (ord : List ℕ → List ℕ) (reg : Obs.RegArg) (c : Config) (i : ℕ) :
    Except PyErr (Block Prim) := do
  (c.layer i).postInit
  createAnsatz circle ord reg (c.layer i)

/-- The loop of `_interleave_ansatz_in_fm` (qadence/ml_tools/constructors.py:701-705): after every block but the last one a
layer; `i` is the number of the first block. -/
def interleaved (layer : ℕ → Except PyErr (Block Prim)) : ℕ → List (Block Prim) → Except PyErr (List (Block Prim))
  | _, [] => .ok []
  | _, [b] => .ok [b]
  | i, b :: bs => do
    let l ← layer i
    let rest ← interleaved layer (i + 1) bs
    return b :: l :: rest

/-- `if isinstance(tag, str): tag(block, tag)` (qadence/ml_tools/constructors.py:786-787, 792-793). -/
def retag (t : Option String) (b : Block Prim) : Block Prim :=
  match t with
  | none => b
  | some t => FeatureMap.setTag (some t) b

/-- The blocks of the circuit of `build_qnn_from_configs` (qadence/ml_tools/constructors.py:776-796). `features` is
`fm_config.num_features`, `fm` the result of `create_fm_blocks`, `fmTag` the tag of the configuration. -/
def qnnBlocks (circle : ℕ → Register) (ord : List ℕ → List ℕ) (reg : Obs.RegArg) (features : ℕ)
    (fm : Except PyErr (List (Block Prim))) (fmTag : Option String) (c : Config) : Except PyErr (List (Block Prim)) :=
  if features > 0 then do
    let blocks ← fm
    let full ← interleaved (ansatzLayer circle ord reg c) 0 blocks
    let ansatz ← createAnsatz circle ord reg c
    return [retag fmTag (chainOf full), retag c.tag ansatz]
  else do
    let ansatz ← createAnsatz circle ord reg c
    return [retag c.tag ansatz]

end Qadence.QNNConfig
