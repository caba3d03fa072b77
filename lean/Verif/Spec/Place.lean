import Verif.Spec.GateSem

/-!
# Operators in larger registers (specification)
-/

namespace Qadence.Spec

variable {n m : ℕ}

/-- The operator of `n` qubits on the qubits `f 0, ..., f (n - 1)` of a register of `m` qubits. -/
noncomputable def place (f : Fin n ↪ Fin m) (M : Oper n) : Oper m :=
  fun x y => if ∀ j, (∀ i, f i ≠ j) → x j = y j then M (x ∘ f) (y ∘ f) else 0

end Qadence.Spec
