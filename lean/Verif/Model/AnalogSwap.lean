import Verif.Model.Hamiltonian

/-!
# `AnalogSWAP` (`qadence/operations/analog.py`)

The floating-point constants are represented by the exact numbers they stand for; `sqrt` is a function symbol.
-/

namespace Qadence.AnalogSwap

open Block

/-- `np.sqrt(x)`. -/
def sqrt (x : Rat) : Expr := .fn "sqrt" (.num x 0)

/-- `(I(q) - Z(q)) / 2.0` (qadence/operations/analog.py:50). -/
def number (q : Nat) : Except PyErr (Block Gate) := do
  let d ← (ofFixed .I q).sub Gate.arith (.block (ofFixed .Z q))
  d.truediv Gate.arith (.scalar (.num 2 0))

/-- `(2.0 / 3.0) * np.sqrt(2.0)` (qadence/operations/analog.py:51-52). -/
def amp : Expr := .mul (.num (2 / 3) 0) (sqrt 2)

/-- `1.0 + np.sqrt(5.0) / 3` (qadence/operations/analog.py:53-54). -/
def det : Expr := .add (.num 1 0) (.mul (sqrt 5) (.inv (.num 3 0)))

/-- The generator (qadence/operations/analog.py:49-55). -/
def generator (ord : List Nat → List Nat) (control target : Nat) : Except PyErr (Block Gate) := do
  let a ← number control
  let b ← number target
  let k ← kronOf Gate.supp ord [a, b]
  let k ← k.rmul Gate.arith (.scalar (.num 4 0))
  let x ← (ofFixed .X control).rmul Gate.arith (.scalar amp)
  let y ← (ofFixed .X target).rmul Gate.arith (.scalar amp)
  let z ← (ofFixed .Z control).rmul Gate.arith (.scalar det)
  let w ← (ofFixed .Z target).rmul Gate.arith (.scalar det)
  let s ← k.add' Gate.arith (.block x)
  let s ← s.add' Gate.arith (.block y)
  let s ← s.add' Gate.arith (.block z)
  s.add' Gate.arith (.block w)

/-- The default `3 * PI / 4` (qadence/operations/analog.py:48). -/
def defaultParameter : Expr := .mul (.mul (.num 3 0) .pi) (.inv (.num 4 0))

/-- `AnalogSWAP(control, target, parameter)` (qadence/operations/analog.py:48-56). -/
def analogSwap (ord : List Nat → List Nat) (control target : Nat) (parameter : Expr := defaultParameter) :
    Except PyErr (Block Prim) := do
  let g ← generator ord control target
  return .leaf (.hamEvo g parameter) none

end Qadence.AnalogSwap
