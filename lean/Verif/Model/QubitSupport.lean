import Verif.Model.Py

/-!
# Qubit supports (`qadence/qubit_support.py`)
-/

namespace Qadence

/-- Positional arguments of `QubitSupport(...)`: integers, strings and (nested) tuples. -/
inductive SupArg
  | int (i : Int)
  | str (s : String)
  | tuple (l : List SupArg)

/-- A `QubitSupport` value: `("global",)` or a tuple of non-negative integers. -/
inductive QSupport
  | global
  | loc (qs : List Nat)
  deriving DecidableEq, Repr

namespace QSupport

/-- `all(i >= 0 for i in t)` and the conversion to the tuple (qadence/qubit_support.py:8-9, 25). Comparing a
string or a tuple with 0 raises a TypeError; the generator stops at the first negative number. -/
def checkAll : List SupArg → Except PyErr (Option (List Nat))
  | [] => .ok (some [])
  | .int i :: rest =>
    if 0 ≤ i then
      match checkAll rest with
      | .ok (some l) => .ok (some (i.toNat :: l))
      | r => r
    else .ok none
  | .str _ :: _ => .error .typeError
  | .tuple _ :: _ => .error .typeError

/-- `QubitSupport.__new__` (qadence/qubit_support.py:13-33). `n` bounds the tuple nesting depth; the
constructor `new` passes the depth of the arguments. -/
def newAux : Nat → List SupArg → Except PyErr QSupport
  | _, [.int i] => if 0 ≤ i then .ok (.loc [i.toNat]) else .error .valueError
  | _, [.str s] => if s = "global" then .ok .global else .error .typeError
  | n + 1, [.tuple l] => newAux n l
  | 0, [.tuple _] => .error .runtimeError
  | _, args =>
    match checkAll args with
    | .error e => .error e
    | .ok none => .error .valueError
    | .ok (some l) => .ok (.loc l)

mutual
/-- Nesting depth of an argument. -/
def SupArg.depth : SupArg → Nat
  | .int _ => 0
  | .str _ => 0
  | .tuple l => depths l + 1
/-- Nesting depth of a list of arguments. -/
def depths : List SupArg → Nat
  | [] => 0
  | a :: l => max (SupArg.depth a) (depths l)
end

/-- `QubitSupport(*args)` (qadence/qubit_support.py:13-33). -/
def new (args : List SupArg) : Except PyErr QSupport := newAux (depths args) args

/-- `max(t)` of a non-empty tuple of non-negative integers. -/
def tupleMax (l : List Nat) : Nat := l.foldl max 0

/-- `QubitSupport(*range(max(t) + 1)) if len(t) else QubitSupport("global")`
(qadence/qubit_support.py:41, 43). -/
def fill (l : List Nat) : QSupport :=
  if l.isEmpty then .global else .loc (List.range (tupleMax l + 1))

/-- `__add__` (qadence/qubit_support.py:35-45). `setOrder l` is the order in which the interpreter iterates
over the set into which the elements of `l` were inserted in order; Python does not specify it. -/
def add (setOrder : List Nat → List Nat) (self other : QSupport) : QSupport :=
  if self = other then self
  else match self, other with
    | .global, .loc o => fill o
    | .loc s, .global => fill s
    | .loc s, .loc o => .loc (setOrder (s ++ o))
    | .global, .global => .global

/-- `is_disjoint` (qadence/qubit_support.py:54-61). -/
def isDisjoint (self other : QSupport) : Bool :=
  match self, other with
  | .loc s, .loc o => s.all (fun q => !(o.contains q))
  | _, _ => false

end QSupport

end Qadence
