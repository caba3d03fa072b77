import Mathlib.Analysis.Complex.Basic
import Verif.Spec.Bits
import Verif.Spec.GateSem

/-!
# Vectors of amplitudes (specification)
-/

namespace Qadence.Spec

open Matrix

variable {n : ℕ}

/-- The list `row` contains the amplitudes of the state `φ`: the amplitude of a basis state is at the position denoted by
its bitstring. -/
def Tabulates (e : Endian) (row : List ℂ) (φ : St n → ℂ) : Prop :=
  row.length = 2 ^ n ∧ ∀ x : St n, row[bitstringValue e (List.ofFn x)]? = some (φ x)

/-- The state has norm one. -/
def UnitVector (φ : St n → ℂ) : Prop := ∑ x, ‖φ x‖ ^ 2 = 1

/-- The basis state. -/
noncomputable def ket (y : St n) : St n → ℂ := fun x => if x = y then 1 else 0

/-- The state of all qubits in 0. -/
noncomputable def ket0 : St n → ℂ := ket fun _ => false

/-- The state of all qubits in 1. -/
noncomputable def ket1 : St n → ℂ := ket fun _ => true

/-- The inner product of two states. -/
noncomputable def braket (φ ψ : St n → ℂ) : ℂ := ∑ x, star (φ x) * ψ x

end Qadence.Spec
