import Verif.Spec.GateSem
import Verif.Model.Passes

/-!
# Two-body Hamiltonians (specification)
-/

namespace Qadence.Spec

/-- The Hamiltonian is a sum of terms `c * kron(g(j), g(k))` with different qubits below `n`, listed in `cs` as `(j, k, c)`.
Coefficients are numbers or expressions with a value (not single parameters). Pairs may be repeated. -/
structure TwoBody (n : ℕ) (g : FixedGate) (value : Expr → ℚ) (ρ : Env) (gen : Block Gate) (cs : List (ℕ × ℕ × ℚ)) : Prop where
  nonempty : cs ≠ []
  terms : List.Forall₂ (fun (t : Block Gate × Expr) (e : ℕ × ℕ × ℚ) =>
    (∃ t₁ t₂ t₃, t.1 = .comp .kron [.leaf (.fixed g e.1) t₁, .leaf (.fixed g e.2.1) t₂] t₃) ∧
    (∀ x, t.2 ≠ .var x) ∧ value t.2 = e.2.2 ∧ eval ρ t.2 = (e.2.2 : ℂ) ∧ e.1 ≠ e.2.1 ∧ e.1 < n ∧ e.2.1 < n)
    (Block.unroll gen) cs

/-- Total coupling of a pair `j < k`. -/
def coupling (cs : List (ℕ × ℕ × ℚ)) (p : ℕ × ℕ) : ℚ :=
  (cs.map fun e => if (min e.1 e.2.1, max e.1 e.2.1) = p then e.2.2 else 0).sum

/-- Two X gates on the qubits of `p` change the sign of `Z Z` on the pair `q` if the pairs have exactly one qubit in
common. -/
def pairSign (p q : ℕ × ℕ) : ℚ := (-1) ^ (({p.1, p.2} : Finset ℕ) ∩ {q.1, q.2}).card

/-- The sets `{j, k}` of the pairs of the Hamiltonian are iterated in ascending order, as in CPython for all pairs of
qubits below 8. -/
def Ascending (ord : List ℕ → List ℕ) (cs : List (ℕ × ℕ × ℚ)) : Prop :=
  ∀ e ∈ cs, ∀ l : List ℕ, (∀ q, q ∈ l ↔ q = e.1 ∨ q = e.2.1) → (ord l).Pairwise (· < ·)

end Qadence.Spec
