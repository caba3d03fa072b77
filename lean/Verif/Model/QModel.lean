import Mathlib.Data.List.Basic
import Verif.Model.Py

/-!
# `QuantumModel` and `QNN` under sequences of calls (`qadence/model.py`, `qadence/ml_tools/models.py`)

The circuit and the observables count by their symbols (unique, with a name, a flag and an initial value), by their constant
expressions and, for observables, by an opaque value. Tensors are opaque values `α`. A call to the backend is recorded with
everything that is passed on; what gates make of the values is C36. Time symbols (which default to 1) are left out, as are values
given separately for circuit and observables (C37).
-/

namespace Qadence.QModel

open PyDict

/-- A free symbol: a variational parameter if `trainable`, else a feature parameter. -/
structure Sym (α : Type) where
  name : String
  trainable : Bool
  value : α

/-- A torch parameter. -/
structure Param (α : Type) where
  value : α
  grad : Bool

/-- What a model consists of. `O`, `M`, `N`, `G`: observables, measurement and noise and mitigation protocols. -/
structure QM (α O M N G : Type) where
  syms : List (Sym α)
  consts : List (String × α)
  observable : Option O
  inputs : List String
  params : PyDict String (Param α)
  measurement : Option M
  noise : Option N
  mitigation : Option G

variable {α O M N G S : Type}

/-- The parameters of a conversion: trainable symbols with their initial values, then the constants
(qadence/blocks/embedding.py:169-185, qadence/backend.py:217-253). -/
def convertParams (syms : List (Sym α)) (consts : List (String × α)) : PyDict String (Param α) :=
  ofItems ((syms.filter (·.trainable)).map (fun s => (s.name, ⟨s.value, true⟩)) ++ consts.map fun c => (c.1, ⟨c.2, false⟩))

/-- `QuantumModel.__init__` (qadence/model.py:85-163). -/
def init (syms : List (Sym α)) (consts : List (String × α)) (observable : Option O) (measurement : Option M) (noise : Option N)
    (mitigation : Option G) : QM α O M N G where
  syms := syms
  consts := consts
  observable := observable
  inputs := (syms.filter fun s => !s.trainable).map (·.name)
  params := convertParams syms consts
  measurement := measurement
  noise := noise
  mitigation := mitigation

/-- The value of a symbol: from the values given, else from the parameters (qadence/blocks/embedding.py:125-140). -/
def lookup (params : PyDict String (Param α)) (values : PyDict String α) (name : String) : Except PyErr (String × α) :=
  match values.get? name with
  | some v => .ok (name, v)
  | none =>
    match params.get? name with
    | some p => .ok (name, p.value)
    | none => .error .keyError

/-- The value of a constant: from the parameters (qadence/blocks/embedding.py:148-149). -/
def lookupConst (params : PyDict String (Param α)) (name : String) : Except PyErr (String × α) :=
  match params.get? name with
  | some p => .ok (name, p.value)
  | none => .error .keyError

/-- `embedding_fn` (qadence/blocks/embedding.py:118-167): the values of all symbols and constants. -/
def embed (m : QM α O M N G) (values : PyDict String α) : Except PyErr (List (String × α)) := do
  let a ← m.syms.mapM fun s => lookup m.params values s.name
  let b ← m.consts.mapM fun c => lookupConst m.params c.1
  .ok (a ++ b)

/-- A call to the backend. -/
inductive Call (α O M N G S : Type)
  | run (params : List (String × α)) (state : Option S)
  | sample (params : List (String × α)) (shots : ℕ) (state : Option S) (noise : Option N) (mitigation : Option G)
  | expectation (observable : O) (params : List (String × α)) (state : Option S) (measurement : Option M) (noise : Option N)
      (mitigation : Option G)

/-- Calls of methods. -/
inductive Op (α O M N G S : Type)
  | run (values : PyDict String α) (state : Option S)
  | sample (values : PyDict String α) (shots : ℕ) (state : Option S) (noise : Option N) (mitigation : Option G)
  | expectation (values : PyDict String α) (observable : Option O) (state : Option S) (measurement : Option M) (noise : Option N)
      (mitigation : Option G)
  | resetVparams (values : List α)
  | setTrainable (flag : Bool) (names : List String)
  | loadParams (d : PyDict String α) (strict : Bool)

/-- `vparams` (qadence/model.py:165-168). -/
def vparams (m : QM α O M N G) : PyDict String α := (m.params.filter (·.2.grad)).map fun p => (p.1, p.2.value)

/-- The loop of `reset_vparams` (qadence/model.py:309-315): the variational parameters in order. -/
def assign : PyDict String (Param α) → List α → PyDict String (Param α)
  | (k, p) :: ps, vs =>
    if p.grad then
      match vs with
      | v :: vs => (k, ⟨v, true⟩) :: assign ps vs
      | [] => (k, p) :: ps
    else (k, p) :: assign ps vs
  | [], _ => []

/-- `set_trainable` on one symbol (qadence/transpile/block.py:71-77): no names means all. -/
def retag (flag : Bool) (names : List String) (s : Sym α) : Sym α :=
  if names = [] ∨ s.name ∈ names then { s with trainable := flag } else s

/-- Copying one value (qadence/model.py:576-583): an unknown name is only logged, the flag stays. -/
def copyInto (ps : PyDict String (Param α)) (n : String) (v : α) : PyDict String (Param α) :=
  match ps.get? n with
  | some p => ps.set n ⟨v, p.grad⟩
  | none => ps

/-- A method call: the model afterwards and the call to the backend, if any, or the exception. `run` (qadence/model.py:325-351), `sample`
(353-388), `expectation` (390-452), `reset_vparams` (307-315), `set_as_variational` and `set_as_fixed` (210-283),
`load_params_from_dict` (541-583). -/
def step (m : QM α O M N G) : Op α O M N G S → QM α O M N G × Except PyErr (Option (Call α O M N G S))
  | .run values state =>
    (m, do
      let p ← embed m values
      .ok (some (.run p state)))
  | .sample values shots state noise mitigation =>
    (m, do
      let p ← embed m values
      .ok (some (.sample p shots state (noise <|> m.noise) (mitigation <|> m.mitigation))))
  | .expectation values observable state measurement noise mitigation =>
    match observable <|> m.observable with
    | none => (m, .error .valueError)
    | some o =>
      match embed m values with
      | .error e => (m, .error e)
      | .ok p =>
        ({ m with noise := noise <|> m.noise },
          .ok (some (.expectation o p state (measurement <|> m.measurement) (noise <|> m.noise) (mitigation <|> m.mitigation))))
  | .resetVparams values =>
    if values.length = (vparams m).length then ({ m with params := assign m.params values }, .ok none)
    else (m, .error .assertionError)
  | .setTrainable flag names =>
    let syms := m.syms.map (retag flag names)
    ({ m with syms := syms, params := convertParams syms m.consts }, .ok none)
  | .loadParams d strict =>
    if strict ∧ ¬ ((∀ k ∈ d.keys, k ∈ m.params.keys) ∧ ∀ k ∈ m.params.keys, k ∈ d.keys) then (m, .error .runtimeError)
    else ({ m with params := d.foldl (fun ps kv => copyInto ps kv.1 kv.2) m.params }, .ok none)

/-- The model after a sequence of calls; exceptions are caught by the caller. -/
def runAll (m : QM α O M N G) : List (Op α O M N G S) → QM α O M N G
  | [] => m
  | op :: ops => runAll (step m op).1 ops

/-! ## Saving and loading -/

/-- The dictionary of a model (qadence/model.py:462-496): the parameters only if asked for; mitigation is not part of it; an absent
observable becomes a list with an empty dictionary. -/
structure Saved (α O M N : Type) where
  syms : List (Sym α)
  consts : List (String × α)
  observable : Option O
  measurement : Option M
  noise : Option N
  params : PyDict String (Param α)

/-- `_to_dict` (qadence/model.py:462-496). -/
def toDict (m : QM α O M N G) (saveParams : Bool) : Saved α O M N where
  syms := m.syms
  consts := m.consts
  observable := m.observable
  measurement := m.measurement
  noise := m.noise
  params := if saveParams then m.params else []

/-- `_from_dict` (qadence/model.py:498-539): reading the empty dictionary left by an absent observable fails with an `IndexError`
(qadence/serialization.py:178), which is logged, and the variable returned is not set. With `as_torch`, every saved parameter becomes
`nn.Parameter(param)`, which requires a gradient. -/
def fromDict (d : Saved α O M N) (asTorch : Bool) : Except PyErr (QM α O M N G) :=
  match d.observable with
  | none => .error .unboundLocalError
  | some o =>
    let m := init d.syms d.consts (some o) d.measurement d.noise none
    if asTorch then .ok { m with params := d.params.map fun p => (p.1, ⟨p.2.value, true⟩) } else .ok m

/-! ## QNN -/

inductive DiffMode
  | ad | fd
  deriving DecidableEq

/-- A QNN; values are columns of numbers. -/
structure QNN (β O M N G : Type) where
  base : QM (List β) O M N G
  diffMode : DiffMode

variable {β : Type}

/-- `QNN.__init__` (qadence/ml_tools/models.py:136-212). -/
def initQNN (m : QM (List β) O M N G) (inputs : Option (List String)) (diffMode : DiffMode) : Except PyErr (QNN β O M N G) :=
  match m.observable with
  | none => .error .valueError
  | some _ =>
    match inputs with
    | some l => if m.inputs.length = l.length then .ok ⟨{ m with inputs := l }, diffMode⟩ else .error .valueError
    | none => if m.inputs.length ≤ 1 then .ok ⟨m, diffMode⟩ else .error .valueError

/-- What a QNN is called with: a dictionary, a vector, or a matrix with its number of columns. -/
inductive Values (β : Type)
  | dict (d : PyDict String (List β))
  | vector (xs : List β)
  | matrix (rows : List (List β)) (width : ℕ)

/-- Column `j`. -/
def column (rows : List (List β)) (j : ℕ) : List β := rows.filterMap (·[j]?)

/-- `tensor_to_dict` for a matrix (qadence/ml_tools/models.py:96-101). -/
def matrixToDict (inputs : List String) (rows : List (List β)) (width : ℕ) : Except PyErr (PyDict String (List β)) :=
  if width = inputs.length then .ok (ofItems (inputs.map fun i => (i, column rows (inputs.idxOf i)))) else .error .valueError

/-- `tensor_to_dict` (qadence/ml_tools/models.py:94-102); a vector is one column. -/
def formatToDict (inputs : List String) : Values β → Except PyErr (PyDict String (List β))
  | .dict d => .ok d
  | .vector xs => matrixToDict inputs (xs.map fun x => [x]) 1
  | .matrix rows width => matrixToDict inputs rows width

/-- `QNN.expectation` (qadence/ml_tools/models.py:436-458), also `forward` (402-404): observable and mitigation are not passed on. -/
def qnnExpectation (q : QNN β O M N G) (values : Values β) (_observable : Option O) (state : Option S) (measurement : Option M)
    (noise : Option N) (_mitigation : Option G) : QNN β O M N G × Except PyErr (Option (Call (List β) O M N G S)) :=
  match formatToDict q.base.inputs values with
  | .error e => (q, .error e)
  | .ok d =>
    let r := step q.base (.expectation d none state (measurement <|> q.base.measurement) (noise <|> q.base.noise) none)
    ({ q with base := r.1 }, r.2)

/-- `QNN._to_dict` and `QNN._from_dict` (qadence/ml_tools/models.py:463-502): with the names of the inputs, without the
differentiation mode. -/
def qnnReload (q : QNN β O M N G) (saveParams asTorch : Bool) : Except PyErr (QNN β O M N G) :=
  match fromDict (G := G) (toDict q.base saveParams) false with
  | .error e => .error e
  | .ok m =>
    match initQNN m (some q.base.inputs) .ad with
    | .error _ => .error .unboundLocalError
    | .ok q' =>
      if asTorch then
        .ok { q' with base := { q'.base with
          params := (toDict q.base saveParams).params.map fun p => (p.1, ⟨p.2.value, true⟩) } }
      else .ok q'

end Qadence.QModel
