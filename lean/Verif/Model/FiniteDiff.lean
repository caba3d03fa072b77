import Mathlib.Data.Real.Basic
import Mathlib.Data.Finset.Dedup
import Mathlib.Data.Finset.Card
import Verif.Model.Py

/-!
# Finite differences (`qadence/backends/utils.py`)

Tensors of size (batch, m) are functions `β → Fin m → ℝ`, outputs are functions on an index type `κ`. Floating point
numbers are real numbers.
-/

namespace Qadence.FiniteDiff

variable {β κ : Type} {m : ℕ}

/-- Python index of a dimension of size `m`; negative numbers count from the end. -/
def pyIndex (m : ℕ) (i : ℤ) : Except PyErr (Fin m) :=
  if h : 0 ≤ i ∧ i < m then .ok ⟨i.toNat, by omega⟩
  else if h : 0 ≤ i + m ∧ i < 0 then .ok ⟨(i + m).toNat, by omega⟩
  else .error .indexError

/-- `ev = zeros_like(x); ev[:, i] += eps` (qadence/backends/utils.py:217-219). -/
def direction (i : Fin m) (eps : ℝ) : β → Fin m → ℝ := fun _ j => if j = i then eps else 0

/-- `finitediff` (qadence/backends/utils.py:189-233); `defaultEps order` is the step used if none is given
(lines 210-212). Inner calls do not receive `eps` (line 224). -/
noncomputable def finitediff (defaultEps : ℕ → ℝ) (f : (β → Fin m → ℝ) → κ → ℝ) (x : β → Fin m → ℝ) :
    List ℤ → Option ℝ → Except PyErr (κ → ℝ)
  | [], _ => .error .indexError
  | i :: di, eps? => do
    let eps := eps?.getD (defaultEps (di.length + 1))
    let col ← pyIndex m i
    let ev : β → Fin m → ℝ := direction col eps
    if di.length + 1 > 3 ∨ (i :: di).toFinset.card > 1 then
      let a ← finitediff defaultEps f (x + ev) di none
      let b ← finitediff defaultEps f (x - ev) di none
      return fun k => (a k - b k) * (1 / eps) / 2
    else if di.length + 1 = 3 then
      return fun k => (f (x + (2 : ℝ) • ev) k - 2 * f (x + ev) k + 2 * f (x - ev) k - f (x - (2 : ℝ) • ev) k) * (1 / eps) ^ 3 / 2
    else if di.length + 1 = 2 then
      return fun k => (f (x + ev) k + f (x - ev) k - 2 * f x k) * (1 / eps) ^ 2
    else if di.length + 1 = 1 then
      return fun k => (f (x + ev) k - f (x - ev) k) * (1 / eps) / 2
    else .error .valueError

end Qadence.FiniteDiff
