import Verif.Model.Py
import Verif.Model.Expr
import Verif.Model.QubitSupport

/-!
# Blocks: scale and composite blocks over a type of primitive blocks

`qadence/blocks/primitive.py` and `qadence/blocks/composite.py`. Primitive blocks which are no `ScaleBlock` are
the leaves; the leaf type is a parameter since most passes do not look into leaves.
-/

namespace Qadence

/-- `ChainBlock`, `KronBlock`, `AddBlock` (qadence/blocks/composite.py:183, 213, 251). -/
inductive CKind
  | chain
  | kron
  | add
  deriving DecidableEq, Repr

/-- A block. `tag` is the attribute set by `qadence.blocks.utils.tag` (qadence/blocks/utils.py:139-141).
`PutBlock` (qadence/blocks/composite.py:152-180) and analog blocks are not part of this type. -/
inductive Block (L : Type)
  | leaf (l : L) (tag : Option String)
  /-- `ScaleBlock(block, parameter)` (qadence/blocks/primitive.py:224-346) -/
  | scale (b : Block L) (s : Expr) (tag : Option String)
  /-- a composite block with attribute `blocks` -/
  | comp (k : CKind) (bs : List (Block L)) (tag : Option String)

namespace Block

variable {L : Type}

/-- `block.tag`. -/
def tag : Block L → Option String
  | leaf _ t => t
  | scale _ _ t => t
  | comp _ _ t => t

/-- `chain(*bs)` for non-analog blocks (qadence/blocks/utils.py:52-81). -/
def chainOf (bs : List (Block L)) : Block L := .comp .chain bs none

/-- `add(*bs)` (qadence/blocks/utils.py:116-136). -/
def addOf (bs : List (Block L)) : Block L := .comp .add bs none

/-- `ScaleBlock(b, s)` (qadence/blocks/primitive.py:240-247). -/
def scaleOf (b : Block L) (s : Expr) : Block L := .scale b s none

/-- Sum of the supports of the parts: `sum([b.qubit_support ...], start=QubitSupport())`
(qadence/blocks/composite.py:35-37); adding the empty analog sum afterwards is `QSupport.add _ s (loc [])`. -/
def sumSupports (ord : List Nat → List Nat) (ss : List (List Nat)) : QSupport :=
  QSupport.add ord (ss.foldl (fun acc s => QSupport.add ord acc (.loc s)) (.loc [])) (.loc [])

/-- The tuple of a support which is not global. -/
def qsList : QSupport → List Nat
  | .global => []
  | .loc l => l

mutual
/-- `block.qubit_support` (qadence/blocks/primitive.py:44, 257; qadence/blocks/composite.py:30-37). `supp` gives
the support of leaves, `ord` the iteration order of Python sets. -/
def support (supp : L → List Nat) (ord : List Nat → List Nat) : Block L → List Nat
  | .leaf l _ => supp l
  | .scale b _ _ => support supp ord b
  | .comp _ bs _ => qsList (sumSupports ord (supports supp ord bs))
/-- Supports of all blocks of a list. -/
def supports (supp : L → List Nat) (ord : List Nat → List Nat) : List (Block L) → List (List Nat)
  | [] => []
  | b :: bs => support supp ord b :: supports supp ord bs
end

/-- The check in `KronBlock.__init__` (qadence/blocks/composite.py:226-235); local supports only. -/
def kronCheck (ord : List Nat → List Nat) : QSupport → List (List Nat) → Bool
  | _, [] => true
  | acc, s :: ss =>
    QSupport.isDisjoint acc (.loc s) && kronCheck ord (QSupport.add ord acc (.loc s)) ss

/-- `kron(*bs)` (qadence/blocks/utils.py:84-113, qadence/blocks/composite.py:222-237): an empty kron is
refused, overlapping parts raise an AssertionError. -/
def kronOf (supp : L → List Nat) (ord : List Nat → List Nat) (bs : List (Block L)) :
    Except PyErr (Block L) :=
  if bs.isEmpty then .error .notImplementedError
  else if kronCheck ord (.loc []) (supports supp ord bs) then .ok (.comp .kron bs none)
  else .error .assertionError

end Block

end Qadence
