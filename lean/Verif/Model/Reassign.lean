import Verif.Model.Gate

/-!
# Relabelling of qubits (`qadence/transpile/invert.py`)
-/

namespace Qadence

/-- `qubit_map: dict[int, int]` -/
abbrev QMap := List (Nat × Nat)

/-- `qubit_map[i]` -/
def QMap.get (m : QMap) (q : Nat) : Except PyErr Nat :=
  match m.lookup q with
  | some r => .ok r
  | none => .error .keyError

/-- `reassign` on primitive blocks (qadence/transpile/invert.py:26-32, 42-46). The attributes `control` and `target`
of control blocks are not updated by the code; nothing in qadence reads them. -/
def Gate.reassign (m : QMap) : Gate → Except PyErr Gate
  | .fixed g q => do return .fixed g (← m.get q)
  | .rot g q θ => do return .rot g (← m.get q) θ
  | .u q φ θ ω => do return .u (← m.get q) φ θ ω
  | .swap a b => do return .swap (← m.get a) (← m.get b)
  | .proj k b qs => do return .proj k b (← qs.mapM m.get)
  | .matrix r qs => do return .matrix r (← qs.mapM m.get)
  | .control c cs g => do
    let cs' ← cs.mapM m.get
    return .control c cs' (← g.reassign m)

namespace Block

variable {L : Type}

/-- `_construct(type(block), subblocks)` followed by `blk.tag = block.tag` (qadence/transpile/invert.py:35-36,
qadence/blocks/utils.py:43-49). -/
def constructTagged (supp : L → List Nat) (ord : List Nat → List Nat) (k : CKind) (bs : List (Block L))
    (t : Option String) : Except PyErr (Block L) :=
  match k with
  | .kron => do
    let _ ← kronOf supp ord bs
    return .comp .kron bs t
  | k => .ok (.comp k bs t)

mutual
/-- `reassign(block, qubit_map)` (qadence/transpile/invert.py:15-48), `lr` relabels leaves. -/
def reassign (supp : L → List Nat) (ord : List Nat → List Nat) (lr : L → Except PyErr L) :
    Block L → Except PyErr (Block L)
  | .leaf l t => do return .leaf (← lr l) t
  | .scale b s t => do return .scale (← reassign supp ord lr b) s t
  | .comp k bs t => do constructTagged supp ord k (← reassignAll supp ord lr bs) t
/-- `tuple(_block_with_updated_support(b) for b in block.blocks)` -/
def reassignAll (supp : L → List Nat) (ord : List Nat → List Nat) (lr : L → Except PyErr L) :
    List (Block L) → Except PyErr (List (Block L))
  | [] => .ok []
  | b :: bs => do
    let b' ← reassign supp ord lr b
    return b' :: (← reassignAll supp ord lr bs)
end

/-- `reassign` for blocks of gates. -/
def reassignGates (ord : List Nat → List Nat) (m : QMap) (b : Block Gate) : Except PyErr (Block Gate) :=
  reassign Gate.supp ord (Gate.reassign m) b

end Block

/-- `{i: j for (i, j) in zip(bits, reversed(bits))}` (qadence/transpile/invert.py:90-91). -/
def invertMap (n : Nat) : QMap := (List.range n).zip (List.range n).reverse

/-- `invert_endianness(block, n_qubits)` (qadence/transpile/invert.py:83-92). -/
def invertBlock (ord : List Nat → List Nat) (n : Nat) (b : Block Gate) : Except PyErr (Block Gate) :=
  b.reassignGates ord (invertMap n)

/-- A `HamEvo` object with the attributes `_qubit_support`, `generator`, `parameter`
(qadence/operations/ham_evo.py:94-141). -/
structure HamEvoObj where
  qs : List Nat
  gen : Block Gate
  t : Expr

/-- `reassign` on a `HamEvo`: the last branch (qadence/transpile/invert.py:42-46) updates the support only. -/
def HamEvoObj.reassign (m : QMap) (h : HamEvoObj) : Except PyErr HamEvoObj := do
  return { h with qs := ← h.qs.mapM m.get }

end Qadence
