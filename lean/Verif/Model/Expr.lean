/-!
# Parameter expressions

qadence uses sympy expressions as gate parameters and scale factors (`qadence/parameters.py:47-125`). The model
keeps the syntax tree; sympy's automatic simplifications (which preserve the value) are not modelled.
-/

namespace Qadence

/-- Expressions over named parameters. -/
inductive Expr
  /-- a (possibly complex) number -/
  | num (re im : Rat)
  | pi
  /-- a `Parameter` (qadence/parameters.py:47) -/
  | var (name : String)
  | add (a b : Expr)
  | mul (a b : Expr)
  /-- `e ** k` -/
  | pow (e : Expr) (k : Nat)
  /-- `1 / e` -/
  | inv (e : Expr)
  /-- `Dagger(e)` (qadence/parameters.py:25) -/
  | conj (e : Expr)
  /-- a sympy function application such as `sin(e)` -/
  | fn (f : String) (e : Expr)
  deriving DecidableEq, Repr

namespace Expr

/-- An integer constant. -/
def int (z : Int) : Expr := .num z 0

/-- `-e` in sympy is multiplication with -1. -/
def neg (e : Expr) : Expr := .mul (.num (-1) 0) e

/-- `expr.is_number`: there is no free symbol. -/
def isNumber : Expr → Bool
  | num _ _ => true
  | pi => true
  | var _ => false
  | add a b => a.isNumber && b.isNumber
  | mul a b => a.isNumber && b.isNumber
  | pow e _ => e.isNumber
  | inv e => e.isNumber
  | conj e => e.isNumber
  | fn _ e => e.isNumber

/-- `expr.free_symbols` as a list of names with repetitions. -/
def freeSymbols : Expr → List String
  | num _ _ => []
  | pi => []
  | var x => [x]
  | add a b => a.freeSymbols ++ b.freeSymbols
  | mul a b => a.freeSymbols ++ b.freeSymbols
  | pow e _ => e.freeSymbols
  | inv e => e.freeSymbols
  | conj e => e.freeSymbols
  | fn _ e => e.freeSymbols

end Expr

end Qadence
