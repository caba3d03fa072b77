import Verif.Model.Circuit
import Verif.Model.Register

/-!
# Dictionaries of blocks and circuits

`_to_dict` and `_from_dict` of blocks (`qadence/blocks/primitive.py`, `qadence/blocks/composite.py`), `deserialize`
for blocks (`qadence/serialization.py:146-157`) and `QuantumCircuit._to_dict/_from_dict` (`qadence/circuit.py`).
Expressions are written by `ser` and read by `des` (`serialize`/`deserialize` of expressions, see
`Verif.Model.ExprString`). The uuids of parameters are not modelled.
-/

namespace Qadence

/-- `NoiseHandler._to_dict()` or `None` (qadence/blocks/primitive.py:98). -/
abbrev NoiseDict : Type := Option (List NoiseEnum × List (NoiseOptions Rat))

/-- The dictionary of a block. The constructors are the sets of keys which the `_to_dict` methods write; every
dictionary has the keys `type` and `tag`. -/
inductive BDict (E : Type)
  /-- `PrimitiveBlock._to_dict` (qadence/blocks/primitive.py:93-99) -/
  | prim (type : String) (qs : List Nat) (tag : Option String) (noise : NoiseDict)
  /-- `ParametricBlock._to_dict` (qadence/blocks/primitive.py:203-210); `params` is the item `_name_dict` without uuids
  (qadence/parameters.py:368-372) -/
  | param (type : String) (qs : List Nat) (tag : Option String) (params : List (String × E)) (noise : NoiseDict)
  /-- `ControlBlock._to_dict`, `ParametricControlBlock._to_dict` (qadence/blocks/primitive.py:409-416, 470-477); the
  target block is the only block -/
  | ctrl (type : String) (qs : List Nat) (tag : Option String) (block : BDict E) (noise : NoiseDict)
  /-- `ScaleBlock._to_dict` (qadence/blocks/primitive.py:326-332) -/
  | scale (type : String) (tag : Option String) (params : List (String × E)) (block : BDict E)
  /-- `CompositeBlock._to_dict` (qadence/blocks/composite.py:117-123) -/
  | comp (type : String) (qs : List Nat) (tag : Option String) (blocks : List (BDict E))

/-- `d["tag"]`. -/
def BDict.tag {E : Type} : BDict E → Option String
  | .prim _ _ t _ => t
  | .param _ _ t _ _ => t
  | .ctrl _ _ t _ _ => t
  | .scale _ t _ _ => t
  | .comp _ _ t _ => t

/-- `type(block).__name__` (qadence/operations/primitive.py). -/
def FixedGate.className : FixedGate → String
  | .I => "I"
  | .X => "X"
  | .Y => "Y"
  | .Z => "Z"
  | .H => "H"
  | .S => "S"
  | .SDagger => "SDagger"
  | .T => "T"
  | .TDagger => "TDagger"
  | .Zero => "Zero"
  | .N _ => "N"

/-- `type(block).__name__` (qadence/operations/parametric.py). -/
def RotGate.className : RotGate → String
  | .RX => "RX"
  | .RY => "RY"
  | .RZ => "RZ"
  | .PHASE => "PHASE"

/-- `type(block).__name__` (qadence/operations/control_ops.py). -/
def CtrlClass.className : CtrlClass → String
  | .CNOT => "CNOT"
  | .CZ => "CZ"
  | .MCZ => "MCZ"
  | .Toffoli => "Toffoli"
  | .CSWAP => "CSWAP"
  | .CRX => "CRX"
  | .MCRX => "MCRX"
  | .CRY => "CRY"
  | .MCRY => "MCRY"
  | .CRZ => "CRZ"
  | .MCRZ => "MCRZ"
  | .CPHASE => "CPHASE"
  | .MCPHASE => "MCPHASE"

/-- `type(block).__name__` (qadence/blocks/composite.py:183, 213, 251). -/
def CKind.className : CKind → String
  | .chain => "ChainBlock"
  | .kron => "KronBlock"
  | .add => "AddBlock"

/-- A class found by its name in the modules `operations` and `blocks` (qadence/serialization.py:150-154). -/
inductive BClass
  | fixed (g : FixedGate)
  | swap
  | proj
  | matrix
  | rot (g : RotGate)
  | u
  | hamEvo
  | ctrl (c : CtrlClass)
  | scale
  | comp (k : CKind)
  deriving DecidableEq

/-- `getattr(operations, name) if hasattr(operations, name) else getattr(blocks, name)`; an unknown name raises an
AttributeError. The class `N` is found without a state. -/
def BClass.ofName (name : String) : Option BClass :=
  [("I", BClass.fixed .I), ("X", .fixed .X), ("Y", .fixed .Y), ("Z", .fixed .Z), ("H", .fixed .H), ("S", .fixed .S),
    ("SDagger", .fixed .SDagger), ("T", .fixed .T), ("TDagger", .fixed .TDagger), ("Zero", .fixed .Zero),
    ("N", .fixed (.N true)), ("SWAP", .swap), ("Projector", .proj), ("MatrixBlock", .matrix), ("RX", .rot .RX),
    ("RY", .rot .RY), ("RZ", .rot .RZ), ("PHASE", .rot .PHASE), ("U", .u), ("HamEvo", .hamEvo), ("CNOT", .ctrl .CNOT),
    ("CZ", .ctrl .CZ), ("MCZ", .ctrl .MCZ), ("Toffoli", .ctrl .Toffoli), ("CSWAP", .ctrl .CSWAP), ("CRX", .ctrl .CRX),
    ("MCRX", .ctrl .MCRX), ("CRY", .ctrl .CRY), ("MCRY", .ctrl .MCRY), ("CRZ", .ctrl .CRZ), ("MCRZ", .ctrl .MCRZ),
    ("CPHASE", .ctrl .CPHASE), ("MCPHASE", .ctrl .MCPHASE), ("ScaleBlock", .scale), ("ChainBlock", .comp .chain),
    ("KronBlock", .comp .kron), ("AddBlock", .comp .add)].lookup name

section dump

variable {E : Type} (ser : Expr → E)

/-- `self.noise._to_dict() if self.noise is not None else None`. -/
def noiseDump (ν : Option (NoiseHandler Rat)) : NoiseDict := ν.map NoiseHandler.toDict

/-- `_to_dict` of primitive blocks, by class (qadence/blocks/primitive.py:93-99, 203-210, 409-416, 470-477). The target of
a controlled block has no tag and no noise. -/
def Gate.dump : Gate → Option String → Option (NoiseHandler Rat) → BDict E
  | .fixed g q, t, ν => .prim g.className [q] t (noiseDump ν)
  | .rot g q θ, t, ν => .param g.className [q] t [("parameter", ser θ)] (noiseDump ν)
  | .u q φ θ ω, t, ν => .param "U" [q] t [("phi", ser φ), ("theta", ser θ), ("omega", ser ω)] (noiseDump ν)
  | .swap a b, t, ν => .prim "SWAP" [a, b] t (noiseDump ν)
  | .proj _ _ qs, t, ν => .prim "Projector" qs t (noiseDump ν)
  | .matrix _ qs, t, ν => .prim "MatrixBlock" qs t (noiseDump ν)
  | .control c cs g, t, ν => .ctrl c.className (cs ++ g.supp) t (g.dump none none) (noiseDump ν)

/-- `_to_dict` of primitive blocks; of the parameters of `HamEvo` only the time is listed
(qadence/blocks/primitive.py:203-210): the generator itself is not written when it is a block. -/
def Prim.dump (ord : List Nat → List Nat) : Prim → Option String → BDict E
  | .gate g ν, t => g.dump ser t ν
  | .hamEvo gen s, t => .param "HamEvo" (gen.support Gate.supp ord) t [("parameter", ser s)] none

mutual
/-- `block._to_dict()`. -/
def Block.dump (ord : List Nat → List Nat) : Block Prim → BDict E
  | .leaf l t => l.dump ser ord t
  | .scale b s t => .scale "ScaleBlock" t [("parameter", ser s)] (Block.dump ord b)
  | .comp k bs t => .comp k.className (Block.support (Prim.supp ord) ord (.comp k bs t)) t (Block.dumps ord bs)
/-- `[b._to_dict() for b in blocks]`. -/
def Block.dumps (ord : List Nat → List Nat) : List (Block Prim) → List (BDict E)
  | [] => []
  | b :: bs => Block.dump ord b :: Block.dumps ord bs
end

end dump

section load

variable {E : Type} (des : E → Except PyErr Expr)

/-- `cls(*qubit_support, noise)` for the classes with `PrimitiveBlock._from_dict` (qadence/blocks/primitive.py:101-103).
The constructors of one-qubit operations take `(target, noise)`; the one of `Zero` takes no argument
(qadence/operations/primitive.py:255), the one of `N` takes the noise as bitstring and asks for its length (154-166), the one of `SWAP` refuses equal qubits in the kron of its generator (362-368).
`Projector(*qubit_support, noise)` calls `len` of a qubit or lacks arguments (ProjectorBlock, qadence/blocks/primitive.py:519-537),
`MatrixBlock(*qubit_support, noise)` takes the first qubit as matrix: an integer has no attribute of a tensor,
and more than four arguments are refused (qadence/blocks/matrix.py:60-100). A wrong number of qubits is refused. -/
def primNew : BClass → List Nat → Option (NoiseHandler Rat) → Except PyErr (Block Prim)
  | .fixed .Zero, _, _ => .error .typeError
  | .fixed (.N _), _, _ => .error .typeError
  | .fixed g, [q], ν => .ok (.leaf (.gate (.fixed g q) ν) none)
  | .fixed _, _, _ => .error .typeError
  | .swap, [a, b], ν => if a = b then .error .assertionError else .ok (.leaf (.gate (.swap a b) ν) none)
  | .swap, _, _ => .error .typeError
  | .proj, _, _ => .error .typeError
  | .matrix, qs, _ => if 1 ≤ qs.length ∧ qs.length ≤ 4 then .error .attributeError else .error .typeError
  | _, _, _ => .error .keyError

/-- `ParamMap._from_dict` (qadence/parameters.py:374-383). -/
def paramsLoad : List (String × E) → Except PyErr (List (String × Expr))
  | [] => .ok []
  | (n, e) :: ps => do
    let x ← des e
    let xs ← paramsLoad ps
    return (n, x) :: xs

/-- `params.parameter` (qadence/parameters.py:300-366); a missing name raises an AttributeError. -/
def theParameter (ps : List (String × Expr)) : Except PyErr Expr :=
  match ps.lookup "parameter" with
  | some e => .ok e
  | none => .error .attributeError

/-- `cls(target, params, noise)` for the classes with `ParametricBlock._from_dict` (qadence/blocks/primitive.py:212-216).
`RX`, `RY`, `RZ` take a `ParamMap` as it is (qadence/operations/parametric.py:72-74), `PHASE` makes a parameter of it (42),
`U` has three parameters (153-190), `HamEvo` takes the qubit as generator (qadence/operations/ham_evo.py:102-103). -/
def paramNew : BClass → Nat → List (String × Expr) → Option (NoiseHandler Rat) → Except PyErr (Block Prim)
  | .rot .PHASE, _, _, _ => .error .typeError
  | .rot g, q, ps, ν => do
    let θ ← theParameter ps
    return .leaf (.gate (.rot g q θ) ν) none
  | .u, _, _, _ => .error .typeError
  | .hamEvo, _, _, _ => .error .valueError
  | _, _, _, _ => .error .keyError

/-- `cls(control, target, noise)` in `ControlBlock._from_dict` (qadence/blocks/primitive.py:418-422) and the call of
`deserialize` on the parameters of the target in `ParametricControlBlock._from_dict` (479-488). `CNOT` and `CZ` refuse equal
qubits in the kron of their generators (qadence/operations/control_ops.py:33-60, 85-96); `MCZ` and `Toffoli` iterate over
the control qubit (62-83, 328-335), `CSWAP` gets the noise as second target (284-313). -/
def ctrlNew : CtrlClass → Nat → Nat → Option (NoiseHandler Rat) → Except PyErr (Block Prim)
  | .CNOT, c, t, ν => if c = t then .error .assertionError else .ok (.leaf (.gate (.cnot c t) ν) none)
  | .CZ, c, t, ν => if c = t then .error .assertionError else .ok (.leaf (.gate (.cz c t) ν) none)
  | .MCZ, _, _, _ => .error .typeError
  | .Toffoli, _, _, _ => .error .typeError
  | .CSWAP, _, _, _ => .error .typeError
  | _, _, _, _ => .error .valueError

/-- `PrimitiveBlock._from_dict` for a class (qadence/blocks/primitive.py:101-103). -/
def primLoad (c : BClass) (qs : List Nat) (ν : NoiseDict) : Except PyErr (Block Prim) := do
  let h ← NoiseHandler.fromDict ν
  primNew c qs h

/-- `ParametricBlock._from_dict` for a class (qadence/blocks/primitive.py:212-216). -/
def paramLoad (c : BClass) (qs : List Nat) (ps : List (String × E)) (ν : NoiseDict) : Except PyErr (Block Prim) := do
  let xs ← paramsLoad des ps
  match qs with
  | [] => .error .indexError
  | q :: _ => do
    let h ← NoiseHandler.fromDict ν
    paramNew c q xs h

/-- `ControlBlock._from_dict` and `ParametricControlBlock._from_dict` for a class (qadence/blocks/primitive.py:418-422,
479-488). In the latter the dictionary `{"_name_dict": …}` is given to `deserialize`, which looks for a module of that name. -/
def ctrlLoad (c : BClass) (qs : List Nat) (ν : NoiseDict) : Except PyErr (Block Prim) :=
  match c, qs with
  | .ctrl k, q₀ :: q₁ :: _ =>
    if k.isParametric then .error .valueError
    else do
      let h ← NoiseHandler.fromDict ν
      ctrlNew k q₀ q₁ h
  | .ctrl _, _ => .error .indexError
  | _, _ => .error .keyError

/-- `tag(block, tag)` (qadence/blocks/utils.py:139-141). -/
def Block.withTag {L : Type} : Block L → String → Block L
  | .leaf l _, t => .leaf l (some t)
  | .scale b s _, t => .scale b s (some t)
  | .comp k bs _, t => .comp k bs (some t)

/-- `if d["tag"] is not None: tag(block, d["tag"])` (qadence/blocks/composite.py:140-142, qadence/serialization.py:155-156). -/
def Block.retag {L : Type} (b : Block L) : Option String → Block L
  | some t => b.withTag t
  | none => b

/-- `_construct(cls, blocks)` (qadence/blocks/utils.py:25-49, qadence/blocks/composite.py:183-270) for non-analog blocks. -/
def compNew (ord : List Nat → List Nat) (k : CKind) (bs : List (Block Prim)) : Except PyErr (Block Prim) :=
  match k with
  | .chain => .ok (Block.chainOf bs)
  | .add => .ok (Block.addOf bs)
  | .kron => Block.kronOf (Prim.supp ord) ord bs

/-- `ScaleBlock._from_dict` once parameters and block are loaded (qadence/blocks/primitive.py:346). -/
def scaleNew (ps : List (String × Expr)) (b : Block Prim) : Except PyErr (Block Prim) := do
  let s ← theParameter ps
  return Block.scaleOf b s

/-- The class of a dictionary. -/
def withClass {α : Type} (name : String) (f : BClass → Except PyErr α) : Except PyErr α :=
  match BClass.ofName name with
  | some c => f c
  | none => .error .attributeError

/-- The composite class, else a missing key. -/
def withComp {α : Type} (c : BClass) (f : CKind → Except PyErr α) : Except PyErr α :=
  match c with
  | .comp k => f k
  | _ => .error .keyError

mutual
/-- `cls._from_dict(d)` with the class named by `d["type"]`. A class which does not fit the keys of the dictionary
(which no `_to_dict` writes) is answered by a KeyError. -/
def Block.load (ord : List Nat → List Nat) : BDict E → Except PyErr (Block Prim)
  | .prim ty qs _ ν => withClass ty fun c => primLoad c qs ν
  | .param ty qs _ ps ν => withClass ty fun c => paramLoad des c qs ps ν
  | .ctrl ty qs _ _ ν => withClass ty fun c => ctrlLoad c qs ν
  | .scale ty _ ps d => withClass ty fun c =>
    if c = .scale then do
      let xs ← paramsLoad des ps
      let b ← Block.load ord d
      scaleNew xs b
    else .error .keyError
  | .comp ty _ t ds => withClass ty fun c => withComp c fun k => do
    let bs ← Block.loads ord ds
    let b ← compNew ord k bs
    return b.retag t
/-- `[cls._from_dict(b) for b in d["blocks"]]` (qadence/blocks/composite.py:131-138). -/
def Block.loads (ord : List Nat → List Nat) : List (BDict E) → Except PyErr (List (Block Prim))
  | [] => .ok []
  | d :: ds => do
    let b ← Block.load ord d
    let bs ← Block.loads ord ds
    return b :: bs
end

/-- `deserialize(d)` for the dictionary of a block (qadence/serialization.py:146-157). -/
def Block.deserialize (ord : List Nat → List Nat) (d : BDict E) : Except PyErr (Block Prim) := do
  let b ← Block.load des ord d
  return b.retag d.tag

end load

/-- A `QuantumCircuit` with its register (qadence/circuit.py:28-48). -/
structure FullCircuit where
  register : Register
  block : Block Prim

/-- `QuantumCircuit(register, block)` with one digital block (qadence/circuit.py:31-48). -/
def FullCircuit.new (ord : List Nat → List Nat) (r : Register) (b : Block Prim) : Except PyErr FullCircuit := do
  let c ← Circuit.new (Prim.supp ord) (Prim.nQubits ord) ord r.nQubits [b]
  return ⟨r, c.block⟩

/-- `QuantumCircuit._from_dict(circuit._to_dict())` (qadence/circuit.py:157-191, qadence/register.py:331-350). -/
noncomputable def FullCircuit.roundTrip {E : Type} (ser : Expr → E) (des : E → Except PyErr Expr)
    (ord : List Nat → List Nat) (c : FullCircuit) : Except PyErr FullCircuit := do
  let r ← c.register.roundTrip ord
  let b ← Block.load des ord (c.block.dump ser ord)
  FullCircuit.new ord r b

end Qadence
