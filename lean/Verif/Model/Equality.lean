import Verif.Model.Gate
import Verif.Proofs.Except

/-!
# Comparison of blocks (`__eq__` and `__contains__`)

`qadence/blocks/primitive.py`, `qadence/blocks/composite.py` and `qadence/parameters.py:133-150`. Not modelled: `PutBlock`, analog
blocks, `other` which is no block (a TypeError). Parameters with the same name are the same `Parameter` object.
-/

namespace Qadence

/-- `a == b` for sympy expressions. sympy compares the trees; if the left one is a `Parameter`, `Parameter.__eq__`
(qadence/parameters.py:133-150) returns whether it is one of the free symbols of the right one. The flattening and ordering of the
arguments of sums and products is not modelled. -/
def Expr.pyEq : Expr → Expr → Bool
  | .var x, .var y => x == y
  | .var x, e => e.freeSymbols.contains x
  | .num a b, .num c d => a == c && b == d
  | .pi, .pi => true
  | .add a b, .add c d => a.pyEq c && b.pyEq d
  | .mul a b, .mul c d => a.pyEq c && b.pyEq d
  | .pow e k, .pow e' k' => e.pyEq e' && k == k'
  | .inv e, .inv e' => e.pyEq e'
  | .conj e, .conj e' => e.pyEq e'
  | .fn f e, .fn f' e' => f == f' && e.pyEq e'
  | _, _ => false

/-- `a.equals(b)` of sympy: `a == b`, or sympy can show by simplification (`simp`) that the difference is zero. -/
def Expr.equals (simp : Expr → Expr → Bool) (a b : Expr) : Bool := a.pyEq b || simp a b

/-- `type(a) is type(b)`. -/
def Gate.sameType : Gate → Gate → Bool
  | .fixed (.N _) _, .fixed (.N _) _ => true
  | .fixed g _, .fixed g' _ => g == g'
  | .rot g _ _, .rot g' _ _ => g == g'
  | .u _ _ _ _, .u _ _ _ _ => true
  | .swap _ _, .swap _ _ => true
  | .proj _ _ _, .proj _ _ _ => true
  | .matrix _ _, .matrix _ _ => true
  | .control c _ _, .control c' _ _ => c == c'
  | _, _ => false

/-- `c` is derived from `d` (qadence/operations/control_ops.py:94, 131, 174, 213, 269). -/
def CtrlClass.derived : CtrlClass → CtrlClass → Bool
  | .CZ, .MCZ => true
  | .CRX, .MCRX => true
  | .CRY, .MCRY => true
  | .CRZ, .MCRZ => true
  | .CPHASE, .MCPHASE => true
  | _, _ => false

/-- The type of `a` is a proper subclass of the type of `b`; `N` is derived from `Projector`
(qadence/operations/primitive.py:154). -/
def Gate.subType : Gate → Gate → Bool
  | .fixed (.N _) _, .proj _ _ _ => true
  | .control c _ _, .control d _ _ => c.derived d
  | _, _ => false

mutual
/-- `a == b` for primitive blocks which are no scale blocks. Python calls `b.__eq__(a)` if the type of `b` is a proper subclass of
the type of `a`, and `a.__eq__(b)` otherwise. -/
def gateEq (simp : Expr → Expr → Bool) (a b : Gate) : Except PyErr Bool :=
  if b.subType a then gateDunderEq simp b a else gateDunderEq simp a b
  termination_by (sizeOf a + sizeOf b, 1)
  decreasing_by
    · rw [Nat.add_comm (sizeOf b)]; exact Prod.Lex.right _ Nat.zero_lt_one
    · exact Prod.Lex.right _ Nat.zero_lt_one
/-- `a.__eq__(b)` (qadence/blocks/primitive.py:86-91, 186-193, 402-407, 463-468). Noise is not compared. `U` has no parameter with
the name "parameter". -/
def gateDunderEq (simp : Expr → Expr → Bool) (a b : Gate) : Except PyErr Bool :=
  if b.sameType a || b.subType a then
    if a.supp = b.supp then
      match a, b with
      | .rot _ _ θ, .rot _ _ θ' => .ok (θ.equals simp θ')
      | .u _ _ _ _, _ => .error .attributeError
      | .control _ _ g, .control _ _ g' => gateEq simp g g'
      | _, _ => .ok true
    else .ok false
  else .ok false
  termination_by (sizeOf a + sizeOf b, 0)
end

/-- `a == b` for primitive blocks. Two Hamiltonian evolutions are compared by `ParametricBlock.__eq__`
(qadence/blocks/primitive.py:186-193), that is by their supports and times. -/
def primEq (simp : Expr → Expr → Bool) (ord : List Nat → List Nat) : Prim → Prim → Except PyErr Bool
  | .gate g _, .gate g' _ => gateEq simp g g'
  | .hamEvo gen t, .hamEvo gen' t' =>
    .ok (decide (gen.support Gate.supp ord = gen'.support Gate.supp ord) && t.equals simp t')
  | _, _ => .ok false

namespace Block

variable {L : Type}

mutual
/-- `a == b` for blocks: `CompositeBlock.__eq__` (qadence/blocks/composite.py:80-89), `KronBlock.__eq__` (241-248),
`AddBlock.__eq__` (266-273), `ScaleBlock.__eq__` (qadence/blocks/primitive.py:294-302). -/
def pyEq (leq : L → L → Except PyErr Bool) (a b : Block L) : Except PyErr Bool :=
  match a, b with
  | .leaf l _, .leaf l' _ => leq l l'
  | .scale b s _, .scale b' s' _ => do
    if ← pyEq leq b b' then return s.pyEq s' else return false
  | .comp .chain as t, .comp .chain bs t' =>
    if as.length = bs.length ∧ t = t' then allEq leq as bs else .ok false
  | .comp .kron as t, .comp .kron bs t' =>
    if as.length = bs.length ∧ t = t' then allIn leq as bs else .ok false
  | .comp .add as t, .comp .add bs t' =>
    if as.length = bs.length ∧ t = t' then allIn leq as bs else .ok false
  | _, _ => .ok false
  termination_by sizeOf a + sizeOf b
/-- `all([b0 == b1 for (b0, b1) in zip(as, bs)])` (qadence/blocks/composite.py:86-88). -/
def allEq (leq : L → L → Except PyErr Bool) (as bs : List (Block L)) : Except PyErr Bool :=
  match as, bs with
  | a :: as, b :: bs => do
    let r ← pyEq leq a b
    let rs ← allEq leq as bs
    return r && rs
  | _, _ => .ok true
  termination_by sizeOf as + sizeOf bs
/-- `all([b in other for b in as])`, where `other` has the parts `bs` (qadence/blocks/composite.py:247, 272). -/
def allIn (leq : L → L → Except PyErr Bool) (as bs : List (Block L)) : Except PyErr Bool :=
  match as with
  | a :: as => do
    let r ← isIn leq bs a
    let rs ← allIn leq as bs
    return r && rs
  | [] => .ok true
  termination_by sizeOf as + sizeOf bs
/-- `x in other`, where `other` has the parts `bs`: `CompositeBlock.__contains__` (qadence/blocks/composite.py:91-98). -/
def isIn (leq : L → L → Except PyErr Bool) (bs : List (Block L)) (x : Block L) : Except PyErr Bool :=
  match bs with
  | b :: bs => do
    if ← inPart leq b x then return true
    else if ← pyEq leq b x then return true
    else isIn leq bs x
  | [] => .ok false
  termination_by sizeOf x + sizeOf bs
/-- `isinstance(b, CompositeBlock) and x in b` (qadence/blocks/composite.py:95). -/
def inPart (leq : L → L → Except PyErr Bool) (b : Block L) (x : Block L) : Except PyErr Bool :=
  match b with
  | .comp _ bs _ => isIn leq bs x
  | _ => .ok false
  termination_by sizeOf x + sizeOf b
end

end Block

/-- `a == b` for blocks of gates and Hamiltonian evolutions. -/
def blockEq (simp : Expr → Expr → Bool) (ord : List Nat → List Nat) (a b : Block Prim) : Except PyErr Bool :=
  a.pyEq (primEq simp ord) b

end Qadence
