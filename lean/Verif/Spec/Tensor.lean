import Verif.Spec.Operator

/-!
# What it means that a table of numbers is the matrix of an operator (specification)
-/

namespace Qadence.Spec

variable {n : ℕ}

/-- Position of a basis state in a matrix over the qubits `os`, the first one most significant. -/
def index (os : List ℕ) (x : ℕ → Bool) : ℕ := (os.map x).foldl (fun acc b => 2 * acc + b.toNat) 0

/-- `T` is the matrix of the operator `M` with respect to the qubits `os`: between states which agree outside of `os` the
entries are those of the matrix, the others vanish. -/
def IsMatrixOf (os : List ℕ) (T : ℕ → ℕ → ℂ) (M : Oper n) : Prop :=
  ∀ x y : St n, M x y = if ∀ j : Fin n, (j : ℕ) ∉ os → x j = y j then T (index os (bit x)) (index os (bit y)) else 0

end Qadence.Spec
