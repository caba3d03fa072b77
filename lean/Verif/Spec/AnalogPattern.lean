import Mathlib.Analysis.SpecialFunctions.Exp
import Verif.Spec.AnalogHam

/-!
# Addressing patterns (specification)
-/

namespace Qadence.Spec

variable {n : ℕ}

/-- The numbers among the weights lie between 0 and 1. -/
def WeightsInRange (ws : List (ℕ × PWeight)) : Prop := ∀ k q, (k, PWeight.num q) ∈ ws → 0 ≤ q ∧ q ≤ 1

/-- What is left of a value `x` below a limit `M`: the value itself, half of it at the limit, nothing above. -/
noncomputable def cutOff (x M : ℝ) : ℝ := if x < M then x else if x = M then x / 2 else 0

/-- The logistic function. -/
noncomputable def logistic (x : ℝ) : ℝ := 1 / (1 + Real.exp (-x))

/-- The weight which a parameter with the value `v` has in effect. -/
noncomputable def softWeight (v : ℝ) : ℝ := |v * (logistic (20 * (v + 1)) - logistic (20 * (v - 1)))|

/-- The weights given for qubit `i`: nothing, a number or the value of a parameter. -/
inductive HasWeight (ρ : Env) (ws : List (ℕ × PWeight)) (i : ℕ) : ℝ → Prop
  | missing : ws.lookup i = none → HasWeight ρ ws i 0
  | number {q : ℚ} : ws.lookup i = some (.num q) → HasWeight ρ ws i q
  | parameter {x : String} {v : ℝ} : ws.lookup i = some (.param x) → ρ.var x = v → HasWeight ρ ws i (softWeight v)

/-- Whether a total `x` below a limit `M` is let through: completely, one half at the limit, not at all above. -/
noncomputable def gate (x M : ℝ) : ℝ := if x < M then 1 else if x = M then 1 / 2 else 0

/-- What a qubit of weight `w i` feels of a value `v`: it is cut off at the global limit `G`, its share at the local
limit `L`, and the sum over `m` qubits is let through below the global limit. -/
noncomputable def felt (v G L : ℝ) (w : ℕ → ℝ) (m i : ℕ) : ℝ :=
  gate (cutOff |v| G * ((List.range m).map w).sum) G * cutOff (cutOff |v| G * w i) L

/-- The Hamiltonian of `N` qubits which feel the amplitudes `a` and the detunings `-d`: the amplitude drives X, the
detuning shifts N. -/
noncomputable def patternOp (a d : ℕ → ℝ) (N : ℕ) : Oper n :=
  ((List.range N).map fun i => ((a i / 2 : ℝ) : ℂ) • embed1 i (mat1 .X) +
    ((d i : ℝ) : ℂ) • (embed1 i (mat1 (.N true)) : Oper n)).sum

end Qadence.Spec
