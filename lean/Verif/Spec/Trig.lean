import Mathlib.Analysis.SpecialFunctions.Trigonometric.Deriv
import Mathlib.LinearAlgebra.Span.Basic

/-!
# Trigonometric polynomials (specification)
-/

namespace Qadence.Spec

/-- Functions of the form a + Σ (b_g cos(g x / 2) + c_g sin(g x / 2)) over finitely many g in `gaps`. -/
def Trig (gaps : Set ℝ) : Submodule ℝ (ℝ → ℝ) :=
  Submodule.span ℝ ({fun _ => 1} ∪ {f | ∃ g ∈ gaps, f = fun x => Real.cos (g * x / 2)} ∪
    {f | ∃ g ∈ gaps, f = fun x => Real.sin (g * x / 2)})

end Qadence.Spec
