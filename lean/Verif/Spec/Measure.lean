import Mathlib.Analysis.Complex.Basic
import Verif.Spec.Bits
import Verif.Spec.GateSem

/-!
# Counters and expectation values (specification)
-/

namespace Qadence.Spec

open Matrix

variable {n : ℕ}

/-- (-1) to the number of ones of a bitstring on the given qubits. -/
def parity (qs : List ℕ) (k : List Bool) : ℤ := (-1) ^ qs.countP (fun i => k.getD i false)

/-- Frequency-weighted mean of the parity. -/
def meanParity (qs : List ℕ) (c : List (List Bool × ℕ)) : ℚ :=
  (c.map fun kv => (kv.2 : ℚ) * parity qs kv.1).sum / totalShots c

/-- Expectation value of an operator in a state. -/
noncomputable def expct (O : Oper n) (φ : St n → ℂ) : ℂ := star φ ⬝ᵥ (O *ᵥ φ)

/-- The product of the Z operators on a list of qubits. -/
noncomputable def zString (qs : List ℕ) : Oper n := opProd (qs.map fun q => embed1 q (mat1 .Z))

/-- The counter has `N` shots of all `n` qubits, and its frequencies are the Born probabilities of the state `φ`. -/
structure BornCounter (N : ℕ) (φ : St n → ℂ) (c : List (List Bool × ℕ)) : Prop where
  width : ∀ kv ∈ c, kv.1.length = n
  shots : totalShots c = N
  born : ∀ x : St n, (countOf c (List.ofFn x) : ℝ) = N * ‖φ x‖ ^ 2

/-- Letter and qubit of a block which is a single Pauli operation. -/
def pauliLetter : Block Gate → Option (FixedGate × ℕ)
  | .leaf (.fixed g q) _ => if g = .X ∨ g = .Y ∨ g = .Z then some (g, q) else none
  | _ => none

/-- The block is a Pauli string: a single X, Y or Z or a chain or kron of them, with at most one letter per qubit. (Z may
be repeated on a qubit.) -/
structure PauliString (n : ℕ) (term : Block Gate) (ps : List (FixedGate × ℕ)) : Prop where
  parts : (pauliLetter term).toList = ps ∨ ∃ k bs t, term = .comp k bs t ∧ k ≠ .add ∧ bs.map pauliLetter = ps.map some
  nonempty : ps ≠ []
  inside : ∀ p ∈ ps, p.2 < n
  once : ps.Pairwise fun a b => a.2 ≠ b.2 ∨ a.1 = .Z ∧ b.1 = .Z

end Qadence.Spec
