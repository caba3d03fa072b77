import Mathlib.Data.Rat.Init
import Mathlib.Algebra.Order.Field.Rat
import Mathlib.Analysis.SpecialFunctions.Trigonometric.Basic
import Verif.Model.Py

/-!
# Callbacks with a state (`qadence/ml_tools/callbacks/callback.py`)
-/

namespace Qadence

/-- A floating point number: the finite ones are rational numbers, and comparison is exact. -/
inductive FVal
  | nan | negInf | fin (q : Rat) | posInf
  deriving DecidableEq, Repr

/-- `a < b` of Python floats: false if one of them is NaN. -/
def FVal.lt : FVal → FVal → Bool
  | .negInf, .fin _ => true
  | .negInf, .posInf => true
  | .fin _, .posInf => true
  | .fin a, .fin b => a < b
  | _, _ => false

/-- The `mode` of early stopping: the strings "min" and "max", or another string (not rejected by the code). -/
inductive ESMode
  | min | max | other
  deriving DecidableEq, Repr

/-- The state of `EarlyStopping` (qadence/ml_tools/callbacks/callback.py:714-719). -/
structure ESState where
  best : FVal
  counter : Int
  deriving DecidableEq, Repr

/-- `EarlyStopping.__init__` (qadence/ml_tools/callbacks/callback.py:714-719). -/
def ESState.init (m : ESMode) : ESState := { best := if m = .min then .posInf else .negInf, counter := 0 }

/-- `EarlyStopping.run_callback` (qadence/ml_tools/callbacks/callback.py:721-745): new state and whether a stop is
requested. `none` is a missing metric. -/
def ESState.run (m : ESMode) (patience : Int) (s : ESState) : Option FVal → Except PyErr (ESState × Bool)
  | none => .error .valueError
  | some v =>
    let s' : ESState :=
      if (m = .min ∧ v.lt s.best = true) ∨ (m = .max ∧ s.best.lt v = true) then { best := v, counter := 0 }
      else { s with counter := s.counter + 1 }
    .ok (s', decide (s'.counter ≥ patience))

/-- A sequence of calls: the final state and the requests. -/
def ESState.runs (m : ESMode) (patience : Int) : ESState → List (Option FVal) → Except PyErr (ESState × List Bool)
  | s, [] => .ok (s, [])
  | s, v :: vs => do
    let (s', b) ← s.run m patience v
    let (s'', bs) ← runs m patience s' vs
    return (s'', b :: bs)

/-- `SaveBestCheckpoint.run_callback` (qadence/ml_tools/callbacks/callback.py:425-444) on the process of rank 0 for a given
criterion (with `val_epsilon` applied; `none` if not configured): new best loss and whether a checkpoint was written. -/
def saveBest (crit : Option (FVal → FVal → Bool)) (best loss : FVal) : FVal × Bool :=
  match crit with
  | none => (best, false)
  | some c => if c loss best then (loss, true) else (best, false)

/-- A sequence of calls of `SaveBestCheckpoint`: the state is the best loss and the loss of the model stored in the file
"best", if any. -/
def saveBests (crit : Option (FVal → FVal → Bool)) : FVal × Option FVal → List FVal → FVal × Option FVal
  | s, [] => s
  | (best, file), v :: vs =>
    let r := saveBest crit best v
    saveBests crit (r.1, if r.2 then some v else file) vs

/-- The state before the first call (qadence/ml_tools/callbacks/callback.py:423). -/
def saveBestInit : FVal × Option FVal := (.posInf, none)

/-- `LRSchedulerStepDecay.run_callback` (qadence/ml_tools/callbacks/callback.py:525-536) for one parameter group. Real
numbers instead of floats, as in the following schedules. -/
noncomputable def stepDecay (gamma lr : ℝ) : ℝ := lr * gamma

/-- `LRSchedulerCyclic.run_callback` (qadence/ml_tools/callbacks/callback.py:590-604). -/
noncomputable def cyclicLr (base max : ℝ) (step it : ℕ) : Except PyErr ℝ :=
  if step = 0 then .error .zeroDivisionError
  else
    let cycle : ℕ := it / (2 * step)
    let x : ℝ := |(it : ℝ) / step - 2 * cycle - 1|
    let scale : ℝ := Max.max 0 (1 - x)
    .ok (base + (max - base) * scale)

/-- `LRSchedulerCosineAnnealing.run_callback` (qadence/ml_tools/callbacks/callback.py:649-666) for one parameter group with
learning rate `lr`. -/
noncomputable def cosineLr (minLr : ℝ) (tMax it : ℕ) (lr : ℝ) : Except PyErr ℝ :=
  if tMax = 0 then .error .zeroDivisionError
  else .ok (minLr + (lr - minLr) * (1 + Real.cos (Real.pi * it / tMax)) / 2)

/-- Calls at a list of iterations. -/
noncomputable def cosineLrs (minLr : ℝ) (tMax : ℕ) : List ℕ → ℝ → Except PyErr ℝ
  | [], lr => .ok lr
  | it :: its, lr => do
    let lr' ← cosineLr minLr tMax it lr
    cosineLrs minLr tMax its lr'

end Qadence
