import Mathlib.Analysis.Matrix.PosDef
import Mathlib.Analysis.SpecialFunctions.Log.Base

/-!
# Functions of density matrices (specification)
-/

namespace Qadence.Spec.Density

open Matrix

open scoped ComplexOrder

variable {d : ℕ}

/-- The eigenvalues `w` with the eigenvectors in the columns of the unitary matrix `V`. -/
structure Decomposes (M : Matrix (Fin d) (Fin d) ℂ) (w : Fin d → ℝ) (V : Matrix (Fin d) (Fin d) ℂ) : Prop where
  unitary : Vᴴ * V = 1
  eq : M = V * diagonal (fun i => (w i : ℂ)) * Vᴴ

/-- A density matrix. -/
structure IsState (M : Matrix (Fin d) (Fin d) ℂ) : Prop where
  pos : M.PosSemidef
  trace : M.trace = 1

/-- The projector on a vector. -/
def proj (ψ : Fin d → ℂ) : Matrix (Fin d) (Fin d) ℂ := vecMulVec ψ (star ψ)

/-- The positive square root. -/
structure IsSqrt (S M : Matrix (Fin d) (Fin d) ℂ) : Prop where
  pos : S.PosSemidef
  sq : S * S = M

/-- The von Neumann entropy in bits of a positive matrix divided by its trace, with `0 log 0 = 0`. -/
noncomputable def vonNeumann {M : Matrix (Fin d) (Fin d) ℂ} (hM : M.IsHermitian) : ℝ :=
  -∑ i, (hM.eigenvalues i / M.trace.re) * Real.logb 2 (hM.eigenvalues i / M.trace.re)

end Qadence.Spec.Density
