import Verif.Model.Block

/-!
# Arithmetic on blocks

`qadence/blocks/abstract.py:82-213`, `qadence/blocks/primitive.py:249-253` and the overrides of the classes `I` and
`Zero` in `qadence/operations/primitive.py:101-113, 267-289`.
-/

namespace Qadence.Block

variable {L : Type}

/-- Which leaves are instances of the classes `I` and `Zero`. -/
structure ArithOps (L : Type) where
  isI : L → Bool
  isZero : L → Bool

/-- The right operand: a block, a number or parameter, or anything else. -/
inductive Operand (L : Type)
  | block (b : Block L)
  | scalar (s : Expr)
  | other

/-- The block is an instance of `Zero`. -/
def isZeroBlock (A : ArithOps L) : Block L → Bool
  | .leaf l _ => A.isZero l
  | _ => false

/-- The block is an instance of `I`. -/
def isIBlock (A : ArithOps L) : Block L → Bool
  | .leaf l _ => A.isI l
  | _ => false

/-- Multiplication with a number (qadence/blocks/abstract.py:90-95): nested scale blocks are merged. -/
def mulScalar : Block L → Expr → Block L
  | .scale b s _, c => .scale b (.mul s c) none
  | b, c => .scale b c none

/-- `a * other` (qadence/blocks/abstract.py:82-95; `Zero`: qadence/operations/primitive.py:279-280). Anything else
than a block is passed to `Parameter(...)`; an operand which is no number is refused there. -/
def mul (A : ArithOps L) (a : Block L) : Operand L → Except PyErr (Block L)
  | .block b => .ok (if isZeroBlock A a then a else chainOf [a, b])
  | .scalar c => .ok (if isZeroBlock A a then a else mulScalar a c)
  | .other => if isZeroBlock A a then .ok a else .error .typeError

/-- `other * a` for a number (qadence/blocks/abstract.py:97-98). -/
def rmul (A : ArithOps L) (a : Block L) (o : Operand L) : Except PyErr (Block L) := mul A a o

/-- `*self.blocks if isinstance(self, K) else (self,)`. -/
def unpack (k : CKind) : Block L → List (Block L)
  | .comp k' bs t => if k' = k then bs else [.comp k' bs t]
  | b => [b]

/-- `a *= other` (qadence/blocks/abstract.py:100-118; `I`: qadence/operations/primitive.py:108-113; `Zero`: 282-283). -/
def imul (A : ArithOps L) (a : Block L) (o : Operand L) : Except PyErr (Block L) :=
  if isZeroBlock A a then .ok a
  else match o with
    | .block b => .ok (if isIBlock A a then b else chainOf (unpack .chain a ++ unpack .chain b))
    | _ => .error (if isIBlock A a then .valueError else .typeError)

/-- `a / other` (qadence/blocks/abstract.py:121-125). -/
def truediv (A : ArithOps L) (a : Block L) : Operand L → Except PyErr (Block L)
  | .scalar c => if c = .num 0 0 then .error .zeroDivisionError else mul A a (.scalar (.inv c))
  | _ => .error .typeError

/-- `a + other` (qadence/blocks/abstract.py:127-132; `Zero`: qadence/operations/primitive.py:267-268; for a non-block
operand `Zero` would return the operand, which is no block and not represented here). -/
def add' (A : ArithOps L) (a : Block L) : Operand L → Except PyErr (Block L)
  | .block b => .ok (if isZeroBlock A a then b else addOf [a, b])
  | _ => .error .typeError

/-- `a += other` (qadence/blocks/abstract.py:143-155). -/
def iadd (A : ArithOps L) (a : Block L) : Operand L → Except PyErr (Block L)
  | .block b => .ok (if isZeroBlock A a then b else addOf (unpack .add a ++ unpack .add b))
  | _ => .error .typeError

/-- `-a` (qadence/blocks/abstract.py:189-190). -/
def neg (A : ArithOps L) (a : Block L) : Block L :=
  if isZeroBlock A a then a else mulScalar a (.num (-1) 0)

/-- `+a` (qadence/blocks/abstract.py:192-193). -/
def pos (a : Block L) : Block L := a

/-- The block subtracted by `a - b` (qadence/blocks/abstract.py:163-167). -/
def minus : Block L → Block L
  | .scale b s _ => .scale b (.neg s) none
  | b => .scale b (.num (-1) 0) none

/-- `a - other` (qadence/blocks/abstract.py:157-168; `Zero`: qadence/operations/primitive.py:273-274). -/
def sub (A : ArithOps L) (a : Block L) : Operand L → Except PyErr (Block L)
  | .block b => .ok (if isZeroBlock A a then neg A b else addOf [a, minus b])
  | _ => .error .typeError

/-- `a -= other` (qadence/blocks/abstract.py:170-182; `Zero`: qadence/operations/primitive.py:276-277). -/
def isub (A : ArithOps L) (a : Block L) : Operand L → Except PyErr (Block L)
  | .block b => .ok (if isZeroBlock A a then neg A b else addOf (unpack .add a ++ (unpack .add b).map (neg A)))
  | _ => .error .typeError

/-- `a ** k` for a natural number (qadence/blocks/abstract.py:184-187, qadence/blocks/primitive.py:249-253; `Zero`:
qadence/operations/primitive.py:288-289). -/
def pow (A : ArithOps L) (a : Block L) (k : Nat) : Block L :=
  if isZeroBlock A a then a
  else match a with
    | .scale b s _ => .scale (chainOf (List.replicate k b)) (.pow s k) none
    | _ => chainOf (List.replicate k a)

/-- `a @ other` (qadence/blocks/abstract.py:195-200). -/
def matmul (supp : L → List Nat) (ord : List Nat → List Nat) (a : Block L) : Operand L → Except PyErr (Block L)
  | .block b => kronOf supp ord [a, b]
  | _ => .error .typeError

/-- `a @= other` (qadence/blocks/abstract.py:202-213). -/
def imatmul (supp : L → List Nat) (ord : List Nat → List Nat) (a : Block L) :
    Operand L → Except PyErr (Block L)
  | .block b => kronOf supp ord (unpack .kron a ++ unpack .kron b)
  | _ => .error .typeError

/-- `sum(bs)` for a non-empty list: `((0 + b1) + b2) + ...`, where `0 + b1` is `b1.__radd__(0)`
(qadence/blocks/abstract.py:134-141). -/
def sumBlocks (A : ArithOps L) : List (Block L) → Except PyErr (Block L)
  | [] => .error .typeError
  | b :: bs => bs.foldlM (fun acc c => add' A acc (.block c)) b

end Qadence.Block
