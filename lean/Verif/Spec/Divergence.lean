import Mathlib.Analysis.SpecialFunctions.Log.NegMulLog
import Verif.Spec.Bits

/-!
# Distance of distributions (specification)
-/

namespace Qadence.Spec

/-- The relative frequency of an outcome in a counter. -/
noncomputable def freq (c : List (List Bool × ℕ)) (k : List Bool) : ℝ := (countOf c k : ℝ) / totalShots c

/-- The outcomes of two counters. -/
def outcomes (c d : List (List Bool × ℕ)) : Finset (List Bool) := (c.map Prod.fst ++ d.map Prod.fst).toFinset

/-- The relative entropy of two distributions on a finite set (with `0 log 0 = 0`). -/
noncomputable def relEntropy (S : Finset (List Bool)) (p q : List Bool → ℝ) : ℝ := ∑ k ∈ S, p k * Real.log (p k / q k)

/-- The Jensen-Shannon divergence: the mean of the relative entropies to the mean of the distributions. -/
noncomputable def jensenShannon (S : Finset (List Bool)) (p q : List Bool → ℝ) : ℝ :=
  (relEntropy S p (fun k => (p k + q k) / 2) + relEntropy S q (fun k => (p k + q k) / 2)) / 2

/-- A counter as it comes from sampling: outcomes occur once and with positive counts, and there is one. -/
structure SampleCounter (c : List (List Bool × ℕ)) : Prop where
  nodup : (c.map Prod.fst).Nodup
  pos : ∀ kv ∈ c, 0 < kv.2
  nonempty : c ≠ []

end Qadence.Spec
