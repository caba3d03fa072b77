import Verif.Model.Arith
import Verif.Model.Gate
import Verif.Model.Register

/-!
# Hamiltonians (`qadence/constructors/hamiltonians.py`, `qadence/blocks/utils.py`)
-/

namespace Qadence

/-- Isinstance of `I` and `Zero` for gates (qadence/operations/primitive.py:81-125, 252-315). -/
def Gate.arith : Block.ArithOps Gate where
  isI g := match g with
    | .fixed .I _ => true
    | _ => false
  isZero g := match g with
    | .fixed .Zero _ => true
    | _ => false

namespace Block

/-- A gate as a block. -/
def ofFixed (g : FixedGate) (q : Nat) : Block Gate := .leaf (.fixed g q) none

mutual
/-- `primitive_blocks` (qadence/blocks/utils.py:152-173): scale blocks are opened. -/
def primitiveBlocks {L : Type} : Block L → List L
  | .leaf l _ => [l]
  | .scale b _ _ => primitiveBlocks b
  | .comp _ bs _ => primitiveBlocksList bs
/-- The primitive blocks of a list of blocks. -/
def primitiveBlocksList {L : Type} : List (Block L) → List L
  | [] => []
  | b :: bs => primitiveBlocks b ++ primitiveBlocksList bs
end

/-- Instance of `TPauliBlock = Union[X, Y, Z, I, N]` (qadence/operations/primitive.py:386): the letter of its name. -/
def pauliName : Gate → Option Char
  | .fixed .X _ => some 'X'
  | .fixed .Y _ => some 'Y'
  | .fixed .Z _ => some 'Z'
  | .fixed .I _ => some 'I'
  | .fixed (.N _) _ => some 'N'
  | _ => none

/-- `block_is_qubit_hamiltonian` (qadence/blocks/utils.py:176-198, 342-347). -/
def isQubitHamiltonian (b : Block Gate) : Bool := (primitiveBlocks b).all (fun g => (pauliName g).isSome)

/-- `_support_primitive_block` (qadence/blocks/utils.py:350-361): the set of Pauli names met on a qubit, as a list
without repetition. The names of Pauli blocks have one letter, so that `set(pauli)` is the set with this name. -/
def supportPrimitive (g : Gate) (support : PyDict Nat (List Char)) : PyDict Nat (List Char) :=
  match pauliName g, g.supp with
  | some p, i :: _ =>
    match support.get? i with
    | some s => support.set i (if p ∈ s then s else s ++ [p])
    | none => support.set i [p]
  | _, _ => support

mutual
/-- `_check_commutation` (qadence/blocks/utils.py:364-383). -/
def checkCommutation : Block Gate → PyDict Nat (List Char) → Except PyErr (PyDict Nat (List Char))
  | .comp .add bs _, s => checkCommutationList bs s
  | .comp .kron bs _, s => checkCommutationList bs s
  | .comp .chain _ _, _ => .error .typeError
  | .scale b _ _, s => checkCommutation b s
  | .leaf g _, s => .ok (supportPrimitive g s)
/-- The loop over the parts. -/
def checkCommutationList : List (Block Gate) → PyDict Nat (List Char) → Except PyErr (PyDict Nat (List Char))
  | [], s => .ok s
  | b :: bs, s => do
    let s ← checkCommutation b s
    checkCommutationList bs s
end

/-- `block_is_commuting_hamiltonian` (qadence/blocks/utils.py:386-401). -/
def isCommutingHamiltonian (b : Block Gate) : Except PyErr Bool :=
  if isQubitHamiltonian b then do
    let s ← checkCommutation b []
    return s.values.all (fun v => decide (v.length ≤ 1))
  else .error .assertionError

end Block

/-- `Interaction` or a function or anything else (qadence/constructors/hamiltonians.py:20-45, 57). -/
inductive Interact
  | ZZ | NN | XY | XYZ
  | custom (f : Nat → Nat → Except PyErr (Block Gate))
  | unknown

/-- The interaction functions (qadence/constructors/hamiltonians.py:20-37). -/
def Interact.block (ord : List Nat → List Nat) (i j : Nat) : Interact → Except PyErr (Block Gate)
  | .ZZ => (Block.ofFixed .Z i).matmul Gate.supp ord (.block (Block.ofFixed .Z j))
  | .NN => (Block.ofFixed (.N true) i).matmul Gate.supp ord (.block (Block.ofFixed (.N true) j))
  | .XY => do
    let a ← (Block.ofFixed .X i).matmul Gate.supp ord (.block (Block.ofFixed .X j))
    let b ← (Block.ofFixed .Y i).matmul Gate.supp ord (.block (Block.ofFixed .Y j))
    a.add' Gate.arith (.block b)
  | .XYZ => do
    let a ← (Block.ofFixed .X i).matmul Gate.supp ord (.block (Block.ofFixed .X j))
    let b ← (Block.ofFixed .Y i).matmul Gate.supp ord (.block (Block.ofFixed .Y j))
    let c ← (Block.ofFixed .Z i).matmul Gate.supp ord (.block (Block.ofFixed .Z j))
    let ab ← a.add' Gate.arith (.block b)
    ab.add' Gate.arith (.block c)
  | .custom f => f i j
  | .unknown => .error .keyError

/-- The check of the interaction (qadence/constructors/hamiltonians.py:119-133). -/
def Interact.check (ord : List Nat → List Nat) : Interact → Except PyErr Unit
  | .custom f => do
    let b ← f 0 1
    if b.isQubitHamiltonian then return () else .error .valueError
  | .unknown => .error .keyError
  | _ => .ok ()

/-- The detuning argument: one of the classes N, X, Y, Z or something else (qadence/constructors/hamiltonians.py:50). -/
inductive Detuning
  | N | X | Y | Z | unknown
  deriving DecidableEq, Repr

/-- `detuning(node)`. -/
def Detuning.block (i : Nat) : Detuning → Except PyErr (Block Gate)
  | .N => .ok (Block.ofFixed (.N true) i)
  | .X => .ok (Block.ofFixed .X i)
  | .Y => .ok (Block.ofFixed .Y i)
  | .Z => .ok (Block.ofFixed .Z i)
  | .unknown => .error .typeError

/-- A strength argument (qadence/constructors/hamiltonians.py:59-60). -/
inductive Strength
  | default
  | array (l : List Expr)
  | name (s : String)
  | other

/-- `_preprocess_strengths` (qadence/constructors/hamiltonians.py:165-206). `names` are the suffixes of the
parameter names; `rand k` is the k-th random number if `random_strength` is set. -/
def Strength.preprocess (names : List String) (rand : Option (Nat → Rat)) : Strength → Except PyErr (List Expr)
  | .default =>
    match rand with
    | some r => .ok ((List.range names.length).map (fun k => .num (r k) 0))
    | none => .ok (List.replicate names.length (.num 1 0))
  | .array l => if l.length ≠ names.length then .error .valueError else .ok l
  | .name s => .ok (names.map (fun x => .var (s ++ "_" ++ x)))
  | .other => .error .typeError

/-- `f"{node}"` and `f"{edge[0]}{edge[1]}"` (qadence/constructors/hamiltonians.py:192-194). -/
def nodeName (i : Nat) : String := toString i
def edgeName (e : Nat × Nat) : String := toString e.1 ++ toString e.2

/-- `strength * block` (qadence/blocks/abstract.py:82-98). -/
def scaledTerm (s : Expr) (b : Block Gate) : Except PyErr (Block Gate) := b.rmul Gate.arith (.scalar s)

/-- Arguments of `hamiltonian_factory` besides the register (qadence/constructors/hamiltonians.py:55-63).
`randD`, `randI` are the random numbers drawn when `random_strength` is set. -/
structure HamArgs where
  interaction : Option Interact := none
  detuning : Option Detuning := none
  interactionStrength : Strength := .default
  detuningStrength : Strength := .default
  randD : Option (Nat → Rat) := none
  randI : Option (Nat → Rat) := none
  useAllNodePairs : Bool := false

/-- The pairs of nodes which interact (qadence/constructors/hamiltonians.py:144, 157). -/
def HamArgs.pairs (ord : List Nat → List Nat) (r : Register) (a : HamArgs) : List (Nat × Nat) :=
  if a.useAllNodePairs then r.allNodePairs ord else r.edges

/-- Single-qubit terms (qadence/constructors/hamiltonians.py:149-153). -/
def detuningTerms (d : Option Detuning) (ss : List Expr) (ns : List Nat) : Except PyErr (List (Block Gate)) :=
  match d with
  | none => .ok []
  | some d => (ss.zip ns).mapM (fun p => do
      let b ← d.block p.2
      scaledTerm p.1 b)

/-- Two-qubit terms (qadence/constructors/hamiltonians.py:155-160). -/
def interactionTerms (ord : List Nat → List Nat) (i : Option Interact) (ss : List Expr) (es : List (Nat × Nat)) :
    Except PyErr (List (Block Gate)) :=
  match i with
  | none => .ok []
  | some i => (ss.zip es).mapM (fun p => do
      let b ← i.block ord p.2.1 p.2.2
      scaledTerm p.1 b)

/-- The checks of `hamiltonian_factory` (qadence/constructors/hamiltonians.py:112-137). -/
def HamArgs.check (ord : List Nat → List Nat) (a : HamArgs) : Except PyErr Unit := do
  if a.interaction.isNone && a.detuning.isNone then .error .valueError
  match a.interaction with
  | some i => i.check ord
  | none => pure ()
  if a.detuning = some .unknown then .error .typeError

/-- `hamiltonian_factory` (qadence/constructors/hamiltonians.py:55-162). -/
def hamiltonianFactory (ord : List Nat → List Nat) (r : Register) (a : HamArgs) : Except PyErr (Block Gate) := do
  a.check ord
  let ds ← a.detuningStrength.preprocess (r.labels.map nodeName) a.randD
  let is ← a.interactionStrength.preprocess ((a.pairs ord r).map edgeName) a.randI
  let single ← detuningTerms a.detuning ds r.labels
  let two ← interactionTerms ord a.interaction is (a.pairs ord r)
  return Block.addOf (single ++ two)

end Qadence
