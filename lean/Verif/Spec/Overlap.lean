import Verif.Proofs.GateSem
import Verif.Spec.States

/-!
# Overlaps of states (specification)
-/

namespace Qadence.Spec

open Matrix

/-- `|<a|b>|²` for the states which the blocks `a` and `b` make of `|0…0>` on `n` qubits. -/
noncomputable def overlapOf (n : ℕ) (ρ : Env) (a b : Block Gate) : ℝ :=
  ‖braket (sem (gateSem n ρ) ρ a *ᵥ ket0 : St n → ℂ) (sem (gateSem n ρ) ρ b *ᵥ ket0)‖ ^ 2

end Qadence.Spec
