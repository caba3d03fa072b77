import Mathlib.Algebra.BigOperators.Field
import Mathlib.Data.Rat.Defs
import Verif.Spec.Measure

/-!
# Classical shadows (specification)

A snapshot of `n` qubits is a choice of a basis X, Y or Z (0, 1, 2) for every qubit and a result of the measurement.
-/

namespace Qadence.Spec

open Matrix

variable {n : ℕ}

/-- Basis in which a letter is measured. -/
def basisOf : FixedGate → Option (Fin 3)
  | .X => some 0
  | .Y => some 1
  | .Z => some 2
  | _ => none

/-- The letter measured in a basis. -/
def letterOf : Fin 3 → FixedGate
  | 0 => .X
  | 1 => .Y
  | 2 => .Z

/-- Letter and qubit of a block which is a single Pauli operation or an identity. -/
def letter : Block Gate → Option (FixedGate × ℕ)
  | .leaf (.fixed g q) _ => if g = .X ∨ g = .Y ∨ g = .Z ∨ g = .I then some (g, q) else none
  | _ => none

/-- The block is a Pauli string with identities: the letters `ls` in this order, each on a qubit of its own. -/
structure Word (n : ℕ) (term : Block Gate) (ls : List (FixedGate × ℕ)) : Prop where
  parts : (∃ p, letter term = some p ∧ ls = [p] ∧ p.1 ≠ .I) ∨
    ∃ k bs t, term = .comp k bs t ∧ k ≠ .add ∧ bs.map letter = ls.map some
  inside : ∀ p ∈ ls, p.2 < n
  once : (ls.map Prod.snd).Nodup

/-- The letters other than the identity. -/
def nontrivial (ls : List (FixedGate × ℕ)) : List (FixedGate × ℕ) := ls.filter fun p => p.1 ≠ .I

/-- All letters of the string are measured in the bases `b`. -/
def Measured (ls : List (FixedGate × ℕ)) (b : Fin n → Fin 3) : Prop :=
  ∀ p ∈ nontrivial ls, ∃ h : p.2 < n, basisOf p.1 = some (b ⟨p.2, h⟩)

/-- Product of the results ±1 on the qubits of the string. -/
def result (ls : List (FixedGate × ℕ)) (x : St n) : ℤ := parity ((nontrivial ls).map Prod.snd) (List.ofFn x)

open Classical in
/-- Mean of the results over the snapshots of the group `g` in which the string is measured; 0 if there are none. -/
noncomputable def groupMean {N : ℕ} (ls : List (FixedGate × ℕ)) (b : Fin N → Fin n → Fin 3) (o : Fin N → St n)
    (g : Finset (Fin N)) : ℚ :=
  (∑ i ∈ g.filter (fun i => Measured ls (b i)), (result ls (o i) : ℚ)) / (g.filter fun i => Measured ls (b i)).card

/-- The `k`-th group of `m` consecutive snapshots. -/
def group (N m k : ℕ) : Finset (Fin N) := Finset.univ.filter fun i => k * m ≤ i.val ∧ i.val < (k + 1) * m

/-- `x` is the lower median of the numbers: it is one of them, at least half of them are not larger, and more than half of
them are not smaller. -/
structure IsLowerMedian (xs : List ℚ) (x : ℚ) : Prop where
  mem : x ∈ xs
  below : xs.length ≤ 2 * xs.countP (fun y => decide (y ≤ x))
  above : xs.length < 2 * xs.countP (fun y => decide (x ≤ y))

end Qadence.Spec
