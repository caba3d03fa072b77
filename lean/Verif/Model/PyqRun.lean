import Verif.Model.Bits
import Verif.Model.Embedding

/-!
# Calls of the PyQTorch backend (`qadence/backends/pyqtorch/backend.py:158-253`, `qadence/backends/utils.py:98-166`)

A batch of states is the list of its states, each a list of amplitudes: in the shape `(batch, 2**n)` of qadence these are the
rows, in the shape `[2] * n + [batch]` of PyQTorch the slices of the last axis, flattened; `pyqify` and `unpyqify` only reorder
memory and are the identity in this representation. Noise and density matrices are left out.

PyQTorch is trusted to broadcast: a native circuit or observable is a function of the values of its parameters and one
state, applied to every element of the batch. `V`, `α`, `β` are values of parameters, amplitudes and expectation values.
-/

namespace Qadence.PyqRun

/-- A native circuit (`β` a state) or observable (`β` a number): the names of its parameters and its effect. -/
structure Native (V α β : Type) where
  keys : List String
  fn : List V → List α → β

/-- A tensor as the values of a parameter of a gate. -/
def values {V : Type} : PVal V → Except PyErr (List V)
  | .vec l => .ok l
  | .mat rows => .ok rows.flatten
  | .scalar v => .ok [v]
  | .other => .error .typeError

/-- Broadcasting: all sizes are one or the largest one (batches are not empty). -/
def broadcast (sizes : List ℕ) : Except PyErr ℕ :=
  let m := sizes.foldl max 1
  if sizes.all (fun s => s = 1 || s = m) then .ok m else .error .runtimeError

/-- Element `i` of a broadcast tensor. -/
def pick {γ : Type} (i : ℕ) (l : List γ) : Except PyErr γ :=
  match l[if l.length = 1 then 0 else i]? with
  | some x => .ok x
  | none => .error .indexError

/-- The values of a parameter. -/
def param {V : Type} (d : PyDict String (PVal V)) (k : String) : Except PyErr (List V) :=
  match d.get? k with
  | some p => values p
  | none => .error .keyError

/-- A native circuit or observable on a batch of states. -/
def Native.apply {V α β : Type} (g : Native V α β) (d : PyDict String (PVal V)) (states : List (List α)) :
    Except PyErr (List β) := do
  let vs ← g.keys.mapM (param d)
  let m ← broadcast (states.length :: vs.map List.length)
  (List.range m).mapM fun i => do
    let s ← pick i states
    let ps ← vs.mapM (pick i)
    return g.fn ps s

/-- `validate_state` (qadence/backends/utils.py:154-166) for the shape of a complex tensor. A shape is a tuple and never equal to
the list `[2] * n_qubits` (qadence/backends/utils.py:150-151), so that only the qadence shape passes. -/
def validateShape (n : ℕ) (shape : List ℕ) : Except PyErr Unit :=
  match shape with
  | _ :: s :: _ => if s = 2 ^ n then .ok () else .error .valueError
  | _ => .error .valueError

/-- The test of the initial state, then `pyqify`. -/
def givenState {α : Type} (n : ℕ) (states : List (List α)) : Except PyErr (List (List α)) :=
  if states.all (fun s => s.length = 2 ^ n) then .ok states else .error .valueError

/-- `invert_endianness` on a tensor in the shape `[2] * n + [batch]` (qadence/transpile/invert.py:106-109), which indexes the second
axis: the batch for one qubit, the second qubit for more. -/
def invertPyq {α : Type} (n : ℕ) (states : List (List α)) : Except PyErr (List (List α)) :=
  match n with
  | 0 => .error .indexError
  | 1 => invertRow (Nat.log2 states.length) states
  | n + 2 => states.mapM fun s => (List.range (2 ^ (n + 2))).mapM fun i => do
    let b ← permuteInd 1 (i / 2 ^ n % 2)
    match s[i - i / 2 ^ n % 2 * 2 ^ n + b * 2 ^ n]? with
    | some a => .ok a
    | none => .error .indexError

/-- The initial state of `run` (qadence/backends/pyqtorch/backend.py:170-176): zero states for the batch size inferred from the
parameters, or the given one. -/
def initState {V α : Type} (n : ℕ) (zero : List α) (d : PyDict String (PVal V)) :
    Option (List (List α)) → Except PyErr (List (List α))
  | none => .ok (List.replicate (inferBatchsize d) zero)
  | some s => givenState n s

/-- `run` (qadence/backends/pyqtorch/backend.py:158-179). `zero` is the zero state, `pyqShape` is `not unpyqify_state`. -/
def run {V α : Type} (n : ℕ) (zero : List α) (c : Native V α (List α)) (d : PyDict String (PVal V))
    (state : Option (List (List α))) (little pyqShape : Bool) : Except PyErr (List (List α)) := do
  let s ← initState n zero d state
  let out ← c.apply d s
  if little then (if pyqShape then invertPyq n out else invertWf n out) else .ok out

/-- `param_values`: one dictionary, or separate ones for the circuit and the observables. -/
inductive Params (V : Type)
  | flat (d : PyDict String (PVal V))
  | nested (circuit observables : PyDict String (PVal V))

/-- `param_values["circuit"] if "circuit" in param_values else param_values`
(qadence/backends/pyqtorch/backend.py:192-195, 238-241). -/
def Params.circuit {V : Type} : Params V → PyDict String (PVal V)
  | .flat d => d
  | .nested c _ => c

/-- The same for the observables. -/
def Params.observables {V : Type} : Params V → PyDict String (PVal V)
  | .flat d => d
  | .nested _ o => o

/-- `torch.hstack` of columns (qadence/backends/pyqtorch/backend.py:207-209). -/
def hstack {β : Type} (cols : List (List β)) : Except PyErr (List (List β)) :=
  match cols with
  | [] => .error .runtimeError
  | c :: cs =>
    if cs.all (fun d => d.length = c.length) then
      (List.range c.length).mapM fun i => (c :: cs).mapM fun col =>
        match col[i]? with
        | some x => .ok x
        | none => .error .indexError
    else .error .runtimeError

/-- `_batched_expectation` (qadence/backends/pyqtorch/backend.py:181-210). -/
def batched {V α β : Type} (n : ℕ) (zero : List α) (c : Native V α (List α)) (obs : List (Native V α β)) (p : Params V)
    (state : Option (List (List α))) (little : Bool) : Except PyErr (List (List β)) := do
  let s ← run n zero c p.circuit state little true
  let cols ← obs.mapM fun o => o.apply p.observables s
  hstack cols

/-- An entry of the dictionary of one element of the batch. -/
def ofElem {V : Type} : PElem V → PVal V
  | .scalar v => .scalar v
  | .row l => .vec l

/-- One pass of the loop (qadence/backends/pyqtorch/backend.py:246-250). -/
def loopRow {V α β : Type} (n : ℕ) (zero : List α) (c : Native V α (List α)) (obs : List (Native V α β)) (state : List (List α))
    (little : Bool) (d : PyDict String (PElem V) × PyDict String (PElem V)) : Except PyErr (List β) := do
  let wf ← run n zero c (d.1.map fun kv => (kv.1, ofElem kv.2)) (some state) little true
  let es ← obs.mapM fun o => o.apply (d.2.map fun kv => (kv.1, ofElem kv.2)) wf
  if obs = [] then .error .runtimeError else return es.flatten

/-- `_looped_expectation` (qadence/backends/pyqtorch/backend.py:212-253). -/
def looped {V α β : Type} (n : ℕ) (zero : List α) (c : Native V α (List α)) (obs : List (Native V α β)) (p : Params V)
    (state : Option (List (List α))) (little : Bool) : Except PyErr (List (List β)) :=
  let s := state.getD [zero]
  if s.length ≠ 1 then .error .valueError else do
    let cs ← toListOfDicts p.circuit
    let os ← toListOfDicts p.observables
    let rows ← (cs.zip os).mapM (loopRow n zero c obs s little)
    if rows.all (fun r => r.length = (rows.headD []).length) && !rows.isEmpty then .ok rows else .error .runtimeError

end Qadence.PyqRun
