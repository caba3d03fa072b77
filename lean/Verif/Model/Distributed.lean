import Mathlib.Data.List.Basic
import Mathlib.Data.Rat.Defs
import Mathlib.Algebra.Order.Ring.Rat
import Verif.Model.Data

/-!
# Processes of a training (`qadence/ml_tools/train_utils/execution.py`, `distribution.py`, `accelerator.py`)

The environment `os.environ` is the record of the variables the code reads and writes. A spawned process starts with a copy of the
environment of the head process. Numbers of processes, nodes and ranks are natural numbers. What the process group of torch does
(rendezvous, broadcast, reduction) is not modelled as communication: the properties are about what each process hands to it.
-/

namespace Qadence.Distributed

/-! ## Environment and machine -/

/-- The text of a variable: that of a number, or another one (such as `"None"`). -/
inductive Text
  | int (n : Nat)
  | other (s : String)
deriving DecidableEq

/-- `int(text)`. -/
def Text.toInt : Text → Except PyErr Nat
  | .int n => .ok n
  | .other _ => .error .valueError

/-- `str(x)` of a number or `None`. -/
def textOf : Option Nat → Text
  | some n => .int n
  | none => .other "None"

/-- `int(os.environ.get(name, default))`. -/
def readInt (v : Option Text) (default : Nat) : Except PyErr Nat :=
  match v with
  | some t => t.toInt
  | none => .ok default

/-- The variables of `os.environ` which are used. -/
structure Env where
  /-- `TORCHELASTIC_RUN_ID` is present, as in processes started by torchrun. -/
  elastic : Bool
  rank : Option Text
  worldSize : Option Text
  localRank : Option Text
  masterAddr : Option Text
  masterPort : Option Text
  /-- `SLURM_JOB_ID`, `SLURM_JOB_NUM_NODES`, `SLURM_NODEID`, `SLURM_NODELIST`. -/
  jobId : Option Text
  numNodes : Option Text
  nodeId : Option Text
  nodeList : Option Text

/-- The machine: the number of CUDA devices, the answer of `scontrol show hostnames`, the random ports which are tried and whether a
port is free. -/
structure Machine where
  gpus : Nat
  scontrol : Text → Option Text
  draw : Nat → Nat
  free : Nat → Bool

inductive Compute
  | cpu
  | gpu
deriving DecidableEq

inductive Device
  | cpu
  | cuda (n : Nat)
deriving DecidableEq

/-- `ExecutionType` (qadence/types.py), decides between `DefaultExecution` and `TorchRunexecution`. -/
inductive Kind
  | default
  | torchrun
deriving DecidableEq

/-! ## Executions -/

/-- Attributes of `BaseExecution` which matter here (qadence/ml_tools/train_utils/execution.py:39-85). -/
structure Execution where
  kind : Kind
  compute : Compute
  logSetup : String
  jobId : Option Text
  numNodes : Nat
  nodeRank : Nat
  coresPerNode : Nat
  port : Nat

/-- `_find_available_port` (qadence/ml_tools/train_utils/execution.py:203-225): `fuel` attempts are left, `i` were made. -/
def findPort (m : Machine) : Nat → Nat → Except PyErr Nat
  | 0, _ => .error .runtimeError
  | fuel + 1, i => if m.free (m.draw i) then .ok (m.draw i) else findPort m fuel (i + 1)

/-- `_set_compute` (qadence/ml_tools/train_utils/execution.py:169-186); CUDA is available if there is a device. -/
def setCompute (m : Machine) (setup : String) : Except PyErr Compute :=
  if setup = "gpu" then if m.gpus = 0 then .error .runtimeError else .ok .gpu
  else if setup = "auto" then .ok (if m.gpus = 0 then .cpu else .gpu)
  else .ok .cpu

/-- `BaseExecution.__init__` with `_set_cluster_variables` (qadence/ml_tools/train_utils/execution.py:39-85, 151-167) and
`detect_execution` (qadence/ml_tools/train_utils/execution.py:387-421). -/
def detect (env : Env) (m : Machine) (computeSetup logSetup : String) : Except PyErr Execution := do
  let numNodes ← readInt env.numNodes 1
  let nodeRank ← readInt env.nodeId 0
  let compute ← setCompute m computeSetup
  let port ← findPort m 100 0
  return { kind := if env.elastic then .torchrun else .default, compute, logSetup, jobId := env.jobId, numNodes, nodeRank,
           coresPerNode := if m.gpus = 0 then 1 else m.gpus, port }

/-- `get_local_rank`, the same in both classes (qadence/ml_tools/train_utils/execution.py:253-265, 340-352). -/
def localRank (env : Env) (e : Execution) (p : Nat) : Except PyErr (Option Nat) :=
  match e.compute with
  | .cpu => .ok none
  | .gpu => (readInt env.localRank p).map some

/-- `get_world_size`, the same in both classes (qadence/ml_tools/train_utils/execution.py:267-279, 354-366). -/
def worldSize (env : Env) (nprocs : Nat) : Except PyErr Nat := readInt env.worldSize nprocs

/-- `get_rank` (qadence/ml_tools/train_utils/execution.py:235-251, 326-338). -/
def rank (env : Env) (e : Execution) (p : Nat) : Except PyErr Nat :=
  match e.compute, e.kind with
  | .cpu, _ => .ok p
  | .gpu, .torchrun => readInt env.rank p
  | .gpu, .default => do
    let l ← localRank env e p
    let index := e.nodeRank * e.coresPerNode
    match l with
    | some l => if l = 0 then return index else return index + l
    | none => return index

/-- `get_master_addr` (qadence/ml_tools/train_utils/execution.py:281-298, 368-375); every exception of `scontrol` is caught. -/
def masterAddr (env : Env) (m : Machine) (e : Execution) : Text :=
  match env.masterAddr, e.kind with
  | some a, _ => a
  | none, .torchrun => .other "localhost"
  | none, .default => (env.nodeList.bind m.scontrol).getD (.other "localhost")

/-- `get_master_port` (qadence/ml_tools/train_utils/execution.py:300-315, 377-384). -/
def masterPort (env : Env) (e : Execution) : Except PyErr Text :=
  match env.masterPort, e.kind with
  | some p, _ => .ok p
  | none, .torchrun => .ok (.int 12364)
  | none, .default =>
    match e.jobId with
    | none => .ok (.int e.port)
    | some t => do return .int (12000 + (← t.toInt) % 5000)

/-- `set_device` (qadence/ml_tools/train_utils/execution.py:188-201): the devices for computing and for logging.
`torch.cuda.set_device` refuses a device which does not exist. -/
def setDevice (m : Machine) (e : Execution) (l : Option Nat) : Except PyErr (Device × Device) := do
  let device ← match e.compute, l with
    | .cpu, _ => pure Device.cpu
    | .gpu, some l => if l < m.gpus then pure (Device.cuda l) else .error .runtimeError
    | .gpu, none => .error .valueError
  if e.logSetup = "auto" then return (device, device)
  else if e.logSetup = "cpu" then return (device, .cpu)
  else .error .valueError

/-! ## Processes -/

/-- What a process knows after `setup_process` (qadence/ml_tools/train_utils/distribution.py:87-125). -/
structure Proc where
  rank : Nat
  worldSize : Nat
  localRank : Option Nat
  device : Device
  logDevice : Device
  addr : Text
  port : Text
deriving DecidableEq

/-- `setup_process_rank_environment` (qadence/ml_tools/train_utils/distribution.py:127-165). -/
def setupProcess (env : Env) (m : Machine) (e : Execution) (nprocs p : Nat) : Except PyErr (Proc × Env) := do
  let l ← localRank env e p
  let w ← worldSize env nprocs
  let r ← rank env e p
  let d ← setDevice m e l
  let env' := { env with rank := some (.int r), worldSize := some (.int w), localRank := some (textOf l) }
  let addr := masterAddr env' m e
  let env' := { env' with masterAddr := some addr }
  let port ← masterPort env' e
  return (⟨r, w, l, d.1, d.2, addr, port⟩, { env' with masterPort := some port })

/-- `Accelerator` (qadence/ml_tools/train_utils/accelerator.py:61-89, qadence/ml_tools/train_utils/distribution.py:42-82). -/
structure Accelerator where
  execution : Execution
  configNprocs : Nat
  nprocs : Nat
  worldSize : Nat

/-- `Accelerator.__init__` (qadence/ml_tools/train_utils/accelerator.py:61-89). -/
def accelerator (env : Env) (m : Machine) (nprocs : Nat) (computeSetup logSetup : String) : Except PyErr Accelerator := do
  let e ← detect env m computeSetup logSetup
  let n := match e.kind with
    | .torchrun => 1
    | .default => nprocs
  return ⟨e, nprocs, n, ← worldSize env n⟩

/-- `_spawn_method` with `worker` (qadence/ml_tools/train_utils/accelerator.py:150-184, 208-237): the processes which run the function and
the environment of the head process afterwards. -/
def spawn (env : Env) (m : Machine) (a : Accelerator) : Except PyErr (List Proc × Env) :=
  if a.execution.kind = .default ∧ 1 < a.worldSize then do
    let n := if 1 < a.execution.numNodes then a.nprocs / a.execution.numNodes else a.nprocs
    let ps ← (List.range n).mapM fun p => setupProcess env m a.execution a.nprocs p
    return (ps.map Prod.fst, env)
  else do
    let r ← setupProcess env m a.execution a.nprocs 0
    return ([r.1], r.2)

/-- A script which makes a trainer and fits it (qadence/ml_tools/trainer.py:275-285). -/
def script (env : Env) (m : Machine) (nprocs : Nat) (computeSetup logSetup : String) : Except PyErr (List Proc × Env) := do
  spawn env m (← accelerator env m nprocs computeSetup logSetup)

/-! ## Data and models -/

/-- `_prepare_model` (qadence/ml_tools/train_utils/accelerator.py:280-306): whether the model is wrapped, and with which device. -/
inductive Wrapped
  | plain
  | ddp (deviceIds : Option Nat)
deriving DecidableEq

/-- See `Wrapped`. -/
def prepareModel (p : Proc) : Wrapped :=
  if 1 < p.worldSize then
    match p.device with
    | .cuda _ => .ddp p.localRank
    | .cpu => if p.localRank.getD 0 = 0 then .ddp none else .plain
  else .plain

/-- The indices of `DistributedSampler` of torch for one process, `order` being the shuffled indices of the dataset (the same in all
processes): the list is repeated until each process has equally many, `indices[rank:total:replicas]`. -/
def shard (order : List Nat) (replicas rank : Nat) : Except PyErr (List Nat) :=
  if replicas ≤ rank then .error .valueError
  else .ok ((List.range ((order.length + replicas - 1) / replicas)).map fun j => order.getD ((rank + j * replicas) % order.length) 0)

/-- What a prepared loader iterates over. -/
inductive Source
  /-- the loader as it was -/
  | own
  /-- the given indices of the dataset -/
  | indices (is : List Nat)
  /-- the dataset without a sampler -/
  | whole
deriving DecidableEq

/-- `_prepare_dataloader` (qadence/ml_tools/train_utils/accelerator.py:342-387). Without a rank the sampler takes the one of the process
group. -/
def prepareLoader (p : Proc) (infinite : Bool) (order : List Nat) : Except PyErr Source :=
  if 1 < p.worldSize then
    if infinite then .ok .whole
    else (shard order p.worldSize (p.localRank.getD p.rank)).map .indices
  else .ok .own

open Data in
/-- `prepare_batch` (qadence/ml_tools/train_utils/accelerator.py:389-425). Tuples are lists here. -/
def prepareBatch {τ : Type} (move : τ → τ) (v : Value τ) : Except PyErr (Value τ) :=
  match v with
  | .dict _ => toDevice move v
  | .list _ => toDevice move v
  | .tensor _ => toDevice move v
  | _ => .ok .none

/-! ## Reductions -/

/-- `dist.all_reduce` of one number per process, as used for an operation name
(qadence/ml_tools/train_utils/accelerator.py:449-455). -/
def reduce (op : String) (vs : List ℚ) : ℚ :=
  if op = "max" then
    match vs with
    | [] => 0
    | v :: vs => vs.foldl max v
  else if op = "sum" then vs.sum
  else vs.sum / vs.length

/-- `all_reduce_dict` in all processes (qadence/ml_tools/train_utils/accelerator.py:427-460): the calls of the processes are matched by their
order, not by key. Without process group (`initialized`) every process keeps its values; with different numbers of entries some
process waits for ever, here `none`. -/
def allReduce (initialized : Bool) (op : String) (ds : List (PyDict String ℚ)) : Option (List (PyDict String ℚ)) :=
  if !initialized then some ds
  else if ds.all fun d => d.length = (ds.headD []).length then
    some (ds.map fun d => d.mapIdx fun j kv => (kv.1, reduce op (ds.map fun d' => (d'.map Prod.snd).getD j 0)))
  else none

/-- `_aggregate_result` in all processes (qadence/ml_tools/trainer.py:675-697) for numeric metrics; `reduced.pop("loss")`. -/
def aggregate (initialized allReduceMetrics : Bool) (rs : List (ℚ × PyDict String ℚ)) : Option (List (Option ℚ × PyDict String ℚ)) :=
  if allReduceMetrics then
    (allReduce initialized "mean" (rs.map fun r => PyDict.merge [("loss", r.1)] r.2)).map fun ds =>
      ds.map fun d => (d.get? "loss", d.filter fun kv => kv.1 ≠ "loss")
  else some (rs.map fun r => (some r.1, r.2))

/-- `stop_training` in all processes (qadence/ml_tools/trainer.py:698-711); the indicator is 0 or 1. -/
def stopTraining (initialized : Bool) (flags : List Bool) : Option (List Bool) :=
  (allReduce initialized "max" (flags.map fun b => [("indicator", if b then 1 else 0)])).map fun ds =>
    ds.map fun d => decide (0 < (d.get? "indicator").getD 0)

end Qadence.Distributed
