import Verif.Spec.GateSem
import Verif.Spec.Measure

/-!
# Named Hamiltonians (specification)
-/

namespace Qadence.Spec.Obs

open Qadence.Spec

variable {n : ℕ}

/-- The Pauli operators on a qubit. -/
noncomputable def Zq (i : Fin n) : Oper n := embed1 i (mat1 .Z)
noncomputable def Xq (i : Fin n) : Oper n := embed1 i (mat1 .X)

/-- Sum of the Z operators with coefficients. -/
noncomputable def magnetization (z : ℕ → ℂ) : Oper n := ∑ i : Fin n, z i • Zq i

/-- Transverse field. -/
noncomputable def field (x : ℕ → ℂ) : Oper n := ∑ i : Fin n, x i • Xq i

/-- Couplings between all pairs. -/
noncomputable def coupling (c : ℕ → ℕ → ℂ) : Oper n :=
  ∑ i : Fin n, ∑ j : Fin n, if i < j then c i j • (Zq i * Zq j) else 0

end Qadence.Spec.Obs
