import Mathlib.Analysis.Complex.Basic
import Verif.Spec.GateSem

/-!
# Specification of feature maps

Written without the model of the constructors.
-/

namespace Qadence.Spec

/-- The affine map taking the smaller end of `f` to the smaller end of `g`, the larger end to the larger end. -/
noncomputable def affine (f g : ℚ × ℚ) (x : ℝ) : ℝ :=
  (min g.1 g.2 : ℚ) + (x - (min f.1 f.2 : ℚ)) * (((max g.1 g.2 : ℚ) - (min g.1 g.2 : ℚ)) / ((max f.1 f.2 : ℚ) - (min f.1 f.2 : ℚ)))

/-- The interval between the ends of a range. -/
def interval (f : ℚ × ℚ) : Set ℝ := Set.Icc ((min f.1 f.2 : ℚ) : ℝ) ((max f.1 f.2 : ℚ) : ℝ)

/-- A list of lists which splits the qubits `0, …, n - 1` into `k` non-empty sections of almost equal sizes, in order. -/
structure Splits (n k : ℕ) (parts : List (List ℕ)) : Prop where
  count : parts.length = k
  all : parts.flatten = List.range n
  nonempty : ∀ p ∈ parts, p ≠ []
  even : ∀ p ∈ parts, ∀ q ∈ parts, p.length ≤ q.length + 1

end Qadence.Spec
