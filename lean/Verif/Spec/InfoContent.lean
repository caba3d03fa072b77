import Mathlib.Analysis.SpecialFunctions.Log.NegMulLog

/-!
# Information content of a walk (specification)

Written for functions on the natural numbers, without lists.
-/

namespace Qadence.Spec

open Classical in
/-- The direction of a slope at a threshold: up, down or flat. -/
noncomputable def direction (eps d : ℝ) : ℤ := if |d| ≤ eps then 0 else if 0 < d then 1 else -1

/-- The fraction of the steps `0, …, m - 1` which lead from the direction `a` to the direction `b`. -/
noncomputable def transitionRate (s : ℕ → ℤ) (m : ℕ) (a b : ℤ) : ℝ :=
  ((Finset.range m).filter fun i => s i = a ∧ s (i + 1) = b).card / m

/-- The ordered pairs of different directions. -/
def turns : Finset (ℤ × ℤ) := (({-1, 0, 1} : Finset ℤ) ×ˢ ({-1, 0, 1} : Finset ℤ)).filter fun p => p.1 ≠ p.2

/-- The entropy of the changes of direction, in units of `log 6`. -/
noncomputable def turnEntropy (s : ℕ → ℤ) (m : ℕ) : ℝ :=
  (∑ p ∈ turns, Real.negMulLog (transitionRate s m p.1 p.2)) / Real.log 6

end Qadence.Spec
