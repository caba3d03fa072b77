import Verif.Model.Py

/-!
# Parameters of a model as one vector (`qadence/ml_tools/parameters.py`)

A parameter is a tensor: its shape and its values in row-major order. Broadcasting of slices to a shape of the same
number of elements is `reshape`.
-/

namespace Qadence

/-- A `torch.nn.Parameter` with values in `α`. -/
structure TParam (α : Type) where
  shape : List Nat
  values : List α
  requiresGrad : Bool
  deriving DecidableEq, Repr

/-- `torch.numel`. -/
def TParam.numel {α : Type} (p : TParam α) : Nat := p.shape.foldr (· * ·) 1

/-- The values fill the shape. -/
def TParam.WF {α : Type} (p : TParam α) : Prop := p.values.length = p.numel

/-- `get_parameters` (qadence/ml_tools/parameters.py:8-18): `torch.concat` of no tensors is an error. -/
def getParameters {α : Type} (model : List (TParam α)) : Except PyErr (List α) :=
  match model.filter TParam.requiresGrad with
  | [] => .error .runtimeError
  | ps => .ok (ps.flatMap TParam.values)

/-- Assignment of a slice to a parameter (qadence/ml_tools/parameters.py:35-38): slices of tensors stop at the end; `reshape`
fails if the number of elements is wrong, and so does the assignment of an empty slice to a tensor without dimensions. -/
def assignSlice {α : Type} (p : TParam α) (slice : List α) : Except PyErr (TParam α) :=
  if slice.length = p.numel then .ok { p with values := slice } else .error .runtimeError

/-- The loop of `set_parameters` (qadence/ml_tools/parameters.py:31-39): the parameters and, if it is left by an exception, the
exception. -/
def setLoop {α : Type} (theta : List α) : Nat → List (TParam α) → List (TParam α) × Option PyErr
  | _, [] => ([], none)
  | idx, p :: ps =>
    if p.requiresGrad then
      match assignSlice p ((theta.drop idx).take p.numel) with
      | .error e => (p :: ps, some e)
      | .ok p' =>
        let r := setLoop theta (idx + p.numel) ps
        (p' :: r.1, r.2)
    else
      let r := setLoop theta idx ps
      (p :: r.1, r.2)

/-- `set_parameters` (qadence/ml_tools/parameters.py:21-39). -/
def setParameters {α : Type} (model : List (TParam α)) (theta : List α) : List (TParam α) × Option PyErr :=
  setLoop theta 0 model

/-- `num_parameters` (qadence/ml_tools/parameters.py:42-44). -/
def numParameters {α : Type} (model : List (TParam α)) : Except PyErr Nat := do
  return (← getParameters model).length

end Qadence
