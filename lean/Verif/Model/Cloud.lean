import Mathlib.Data.Rat.Floor
import Verif.Model.Py

/-!
# Workloads on Pasqal Cloud (`qadence/pasqal_cloud_connection.py`)

The remote side is the function which tells the status reported by the `k`-th request; times are rational numbers.
Circuits, observables and JSON strings are opaque values.
-/

namespace Qadence.Cloud

/-- `ResultType` (qadence/pasqal_cloud_connection.py:16-19). -/
inductive ResultType
  | run | sample | expectation
  deriving DecidableEq, Repr

/-- Exceptions of the module, `ValueError` and `TimeoutError`. -/
inductive Err
  | notDone | stopped | valueError | timeout | zeroDivision
  deriving DecidableEq, Repr

/-- `WorkloadSpec` (qadence/pasqal_cloud_connection.py:22-51); of the parameter values only `value.size()` matters for
the checks, the values are carried along. -/
structure Workload (χ ο τ : Type) where
  circuit : χ
  backend : String
  resultTypes : List ResultType
  parameterValues : Option (PyDict String (List Nat × τ))
  observable : Option ο

/-- `_validate_parameter_values` (qadence/pasqal_cloud_connection.py:60-68), on the sizes of the values. -/
def validateSizes (sizes : List (List Nat)) : Except Err Unit :=
  if sizes.all fun size => 1 < size.length then .error .valueError
  else
    let lengths := (sizes.filter fun size => size.length = 1).map fun size => size.headD 0
    if lengths.all fun item => item = lengths.headD 0 then .ok () else .error .valueError

/-- `__post_init__` (qadence/pasqal_cloud_connection.py:53-58). -/
def Workload.postInit {χ ο τ : Type} (w : Workload χ ο τ) : Except Err Unit :=
  if .expectation ∈ w.resultTypes ∧ w.observable.isNone then .error .valueError
  else
    match w.parameterValues with
    | none => .ok ()
    | some d => validateSizes (d.values.map Prod.fst)

/-- The configuration of `WorkloadSpecJSON` (qadence/pasqal_cloud_connection.py:106-110, 119-141). -/
structure Config (σ τ : Type) where
  workloadType : String
  backendType : String
  circuit : σ
  resultTypes : List String
  cValues : PyDict String τ
  observable : Option σ

/-- `ResultType.value`. -/
def ResultType.value : ResultType → String
  | .run => "run" | .sample => "sample" | .expectation => "expectation"

/-- `_workload_spec_to_json` with `_parameter_values_to_json` (qadence/pasqal_cloud_connection.py:113-141); `sc` and `so`
serialise circuits and observables, lists of numbers (`value.tolist()`) are kept as they are. -/
def toJson {χ ο τ σ : Type} (sc : χ → σ) (so : ο → σ) (w : Workload χ ο τ) : Config σ τ where
  workloadType := "qadence_circuit"
  backendType := w.backend
  circuit := sc w.circuit
  resultTypes := w.resultTypes.map ResultType.value
  cValues := match w.parameterValues with
    | none => []
    | some d => d.map fun kv => (kv.1, kv.2.2)
  observable := w.observable.map so

/-- `check_status` (qadence/pasqal_cloud_connection.py:174-206): `ok` stands for the returned result. -/
def checkStatus (status : String) : Except Err Unit :=
  if status = "DONE" then .ok ()
  else if status = "PENDING" ∨ status = "RUNNING" ∨ status = "PAUSED" then .error .notDone
  else if status = "CANCELED" ∨ status = "TIMED_OUT" ∨ status = "ERROR" then .error .stopped
  else .error .valueError

/-- What a call of `get_result` did: its outcome (on success the number of the request which was answered with the result), the
number of requests sent and the number of calls of `time.sleep(refresh_time)`. -/
structure Poll where
  outcome : Except Err Nat
  requests : Nat
  sleeps : Nat

/-- The loop of `get_result` (qadence/pasqal_cloud_connection.py:228-235) with the number of repetitions left, requests and
sleeps so far. -/
def pollLoop (status : Nat → String) : Nat → Nat → Nat → Poll
  | 0, requests, sleeps => ⟨.error .timeout, requests, sleeps⟩
  | n + 1, requests, sleeps =>
    match checkStatus (status requests) with
    | .ok () => ⟨.ok requests, requests + 1, sleeps⟩
    | .error .notDone => pollLoop status n (requests + 1) (sleeps + 1)
    | .error e => ⟨.error e, requests + 1, sleeps⟩

/-- `get_result` (qadence/pasqal_cloud_connection.py:209-235): `int(timeout // refresh_time)` repetitions; `range` of a negative
number is empty. -/
def getResult (status : Nat → String) (timeout refresh : ℚ) : Poll :=
  if refresh = 0 then ⟨.error .zeroDivision, 0, 0⟩
  else pollLoop status ⌊timeout / refresh⌋.toNat 0 0

end Qadence.Cloud
