import Verif.Model.Py

/-!
# Noise handlers (`qadence/noise/protocols.py`)
-/

namespace Qadence

/-- The three noise enumerations bundled in `NoiseProtocol` (qadence/types.py:480-491). -/
inductive NoiseKind
  | analog
  | readout
  | digital
  deriving DecidableEq, Repr

/-- A member of one of the noise enumerations: its class and its string value
(qadence/types.py:64-73, 459-475; `DigitalNoise` comes from pyqtorch). -/
structure NoiseEnum where
  kind : NoiseKind
  value : String
  deriving DecidableEq, Repr

/-- `p1 == p2` for members of `StrEnum(str, Enum)` (qadence/types.py:64): comparison of the string values. -/
def NoiseEnum.pyEq (p q : NoiseEnum) : Bool := p.value == q.value

/-- An options dictionary; a value may be `None`. -/
abbrev NoiseOptions (V : Type) := PyDict String (Option V)

/-- `o1 == o2` for dictionaries: same keys with equal values, independent of order. -/
def NoiseOptions.pyEq {V : Type} [DecidableEq V] (o o' : NoiseOptions V) : Bool :=
  o.all (fun kv => PyDict.get? o' kv.1 == some kv.2) &&
    o'.all (fun kv => PyDict.get? o kv.1 == some kv.2)

/-- A `NoiseHandler` object: its two attributes (qadence/noise/protocols.py:51-52). -/
structure NoiseHandler (V : Type) where
  protocol : List NoiseEnum
  options : List (NoiseOptions V)
  deriving DecidableEq, Repr

namespace NoiseHandler

variable {V : Type} [DecidableEq V]

/-- Name of the mandatory option (qadence/noise/protocols.py:57-59). -/
def mandatoryName (p : NoiseEnum) : String :=
  if p.kind = .analog then "noise_probs" else "error_probability"

/-- `option.get(name, None)`: `None` when the key is absent or stored as `None`. -/
def optGet (o : NoiseOptions V) (name : String) : Option V := (PyDict.get? o name).join

/-- `_verify_single_protocol` (qadence/noise/protocols.py:55-64). -/
def verifySingle (p : NoiseEnum) (o : NoiseOptions V) : Except PyErr Unit :=
  if p.kind ≠ .readout then
    match optGet o (mandatoryName p) with
    | none => .error .keyError
    | some _ => .ok ()
  else .ok ()

/-- The loop over `zip(self.protocol, self.options)` (qadence/noise/protocols.py:75-76). -/
def verifyEach : List (NoiseEnum × NoiseOptions V) → Except PyErr Unit
  | [] => .ok ()
  | (p, o) :: rest =>
    match verifySingle p o with
    | .error e => .error e
    | .ok _ => verifyEach rest

/-- `verify_all_protocols` (qadence/noise/protocols.py:66-94). -/
def verifyAll (h : NoiseHandler V) : Except PyErr Unit :=
  if h.protocol.length = 0 then .error .valueError
  else if h.protocol.length ≠ h.options.length then .error .valueError
  else
    match verifyEach (h.protocol.zip h.options) with
    | .error e => .error e
    | .ok _ =>
      let types := h.protocol.map NoiseEnum.kind
      if NoiseKind.digital ∈ types ∧ NoiseKind.analog ∈ types then .error .valueError
      else if NoiseKind.analog ∈ types ∧ NoiseKind.readout ∈ types then .error .valueError
      else if NoiseKind.analog ∈ types ∧ 1 < types.count NoiseKind.analog then .error .valueError
      else if NoiseKind.readout ∈ types ∧
          (types.getLast? ≠ some NoiseKind.readout ∨ 1 < types.count NoiseKind.readout) then
        .error .valueError
      else .ok ()

/-- `NoiseHandler(protocols, options)` with lists (qadence/noise/protocols.py:46-53).
(A single protocol is the one-element list.) -/
def init (protocol : List NoiseEnum) (options : List (NoiseOptions V)) :
    Except PyErr (NoiseHandler V) :=
  let h : NoiseHandler V := ⟨protocol, options⟩
  match verifyAll h with
  | .error e => .error e
  | .ok _ => .ok h

/-- `NoiseHandler(protocols, option)` with one dictionary: `[options] * len(self.protocol)`
(qadence/noise/protocols.py:52). -/
def initShared (protocol : List NoiseEnum) (option : NoiseOptions V) :
    Except PyErr (NoiseHandler V) :=
  init protocol (List.replicate protocol.length option)

/-- The handler which `append` computes (qadence/noise/protocols.py:104-123). The attributes of `self` are
replaced only when the temporary handler verifies. -/
def append (self : NoiseHandler V) (others : List (NoiseHandler V)) :
    Except PyErr (NoiseHandler V) :=
  init (others.foldl (fun acc n => acc ++ n.protocol) self.protocol)
    (others.foldl (fun acc n => acc ++ n.options) self.options)

/-- `__eq__` between two handlers (qadence/noise/protocols.py:125-133): `zip` truncates. -/
def pyEq (self other : NoiseHandler V) : Bool :=
  (self.protocol.zip other.protocol).all (fun pq => pq.1.pyEq pq.2) &&
    (self.options.zip other.options).all (fun oo => NoiseOptions.pyEq oo.1 oo.2)

/-- `_to_dict` (qadence/noise/protocols.py:135-139): the record of the two attributes. -/
def toDict (self : NoiseHandler V) : List NoiseEnum × List (NoiseOptions V) :=
  (self.protocol, self.options)

/-- `_from_dict` (qadence/noise/protocols.py:141-145). -/
def fromDict (d : Option (List NoiseEnum × List (NoiseOptions V))) :
    Except PyErr (Option (NoiseHandler V)) :=
  match d with
  | none => .ok none
  | some (ps, os) =>
    if ps.isEmpty then .ok none
    else match init ps os with
      | .error e => .error e
      | .ok h => .ok (some h)

/-- `itertools.compress`. -/
def compress {α : Type} (data : List α) (selectors : List Bool) : List α :=
  ((data.zip selectors).filter Prod.snd).map Prod.fst

/-- `filter` (qadence/noise/protocols.py:151-160). -/
def filter (self : NoiseHandler V) (kind : NoiseKind) : Except PyErr (Option (NoiseHandler V)) :=
  let protocolMatches := self.protocol.map (fun p => decide (p.kind = kind))
  if true ∈ protocolMatches then
    match init (compress self.protocol protocolMatches) (compress self.options protocolMatches) with
    | .error e => .error e
    | .ok h => .ok (some h)
  else .ok none

end NoiseHandler

/-- Operations of a program on its noise handlers. Handlers are referred to by position. -/
inductive NoiseOp (V : Type)
  /-- create a handler from lists -/
  | construct (protocol : List NoiseEnum) (options : List (NoiseOptions V))
  /-- create a handler from protocols and one option dictionary -/
  | constructShared (protocol : List NoiseEnum) (option : NoiseOptions V)
  /-- `handlers[i].append([handlers[j] for j in js])`; `bitflip`, `dephasing`, ...
  (qadence/noise/protocols.py:162-206) are a construction followed by such an append -/
  | append (i : Nat) (js : List Nat)
  /-- `handlers[i].filter(kind)`, keeping the result -/
  | filter (i : Nat) (kind : NoiseKind)

/-- One step: the handlers alive afterwards and whether the operation raised. A failing operation creates no
handler and, as `append` works on copies (qadence/noise/protocols.py:110-123), changes none. -/
def NoiseOp.step {V : Type} [DecidableEq V] (s : List (NoiseHandler V)) (op : NoiseOp V) :
    List (NoiseHandler V) × Option PyErr :=
  match op with
  | .construct ps os =>
    match NoiseHandler.init ps os with
    | .error e => (s, some e)
    | .ok h => (s ++ [h], none)
  | .constructShared ps o =>
    match NoiseHandler.initShared ps o with
    | .error e => (s, some e)
    | .ok h => (s ++ [h], none)
  | .append i js =>
    match s[i]?, js.mapM (fun j => s[j]?) with
    | some self, some others =>
      match self.append others with
      | .error e => (s, some e)
      | .ok h => (s.set i h, none)
    | _, _ => (s, some .indexError)
  | .filter i kind =>
    match s[i]? with
    | none => (s, some .indexError)
    | some self =>
      match self.filter kind with
      | .error e => (s, some e)
      | .ok none => (s, none)
      | .ok (some h) => (s ++ [h], none)

/-- The handlers alive after a history of operations. -/
def NoiseOp.run {V : Type} [DecidableEq V] (ops : List (NoiseOp V)) : List (NoiseHandler V) :=
  ops.foldl (fun s op => (NoiseOp.step s op).1) []

end Qadence
