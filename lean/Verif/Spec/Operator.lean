import Mathlib.Data.Complex.Basic
import Mathlib.LinearAlgebra.Matrix.ConjTranspose
import Mathlib.Data.Matrix.Mul
import Mathlib.Data.Fintype.Pi
import Mathlib.Analysis.SpecialFunctions.Trigonometric.Basic
import Verif.Model.Expr

/-!
# Operators on registers of qubits (specification)

A basis state of `n` qubits is a bit per qubit, an operator is a complex matrix indexed by basis states. This
file does not refer to any model of qadence code except for the syntax of parameter expressions.
-/

namespace Qadence.Spec

open Matrix

/-- Basis states of a register with `n` qubits. -/
abbrev St (n : ℕ) := Fin n → Bool

/-- Operators on a register with `n` qubits. -/
abbrev Oper (n : ℕ) := Matrix (St n) (St n) ℂ

variable {n : ℕ}

/-- Bit of qubit `q`; qubits outside the register read as 0. -/
def bit (x : St n) (q : ℕ) : Bool := if h : q < n then x ⟨q, h⟩ else false

/-- Flip the bit of one qubit. -/
def flipBit (j : Fin n) (x : St n) : St n := Function.update x j (!(x j))

/-- The operator does nothing to qubit `j`: it never changes its bit and does not look at it. -/
def TrivialOn (j : Fin n) (M : Oper n) : Prop :=
  (∀ x y, x j ≠ y j → M x y = 0) ∧ ∀ x y, M (flipBit j x) (flipBit j y) = M x y

/-- The operator acts on the qubits in `S` only. -/
def ActsOn (S : Set ℕ) (M : Oper n) : Prop := ∀ j : Fin n, (j : ℕ) ∉ S → TrivialOn j M

/-- The operator which applies the `k`-qubit matrix `U` to the qubits `f 0, ..., f (k-1)`. -/
def embed {k : ℕ} (f : Fin k → ℕ) (U : Matrix (Fin k → Bool) (Fin k → Bool) ℂ) : Oper n :=
  fun x y => if ∀ j : Fin n, (∀ i, f i ≠ j) → x j = y j then
    U (fun i => bit x (f i)) (fun i => bit y (f i)) else 0

/-- The operator which applies a one-qubit matrix to qubit `q`. -/
def embed1 (q : ℕ) (U : Matrix Bool Bool ℂ) : Oper n :=
  fun x y => if ∀ j : Fin n, q ≠ j → x j = y j then U (bit x q) (bit y q) else 0

/-- The operator which does `M` if all control qubits are 1 and nothing otherwise. -/
def controlled (cs : List ℕ) (M : Oper n) : Oper n :=
  fun x y => if ∀ c ∈ cs, bit x c = true then M x y else if x = y then 1 else 0

/-- Exchange the contents of two qubits. -/
def swapOp (a b : ℕ) : Oper n :=
  fun x y => if ∀ j : Fin n, x j = (if (j : ℕ) = a then bit y b else if (j : ℕ) = b then bit y a else y j)
    then 1 else 0

/-- Values of parameters and interpretation of function symbols. -/
structure Env where
  var : String → ℂ
  fn : String → ℂ → ℂ

/-- Value of an expression. -/
noncomputable def eval (ρ : Env) : Expr → ℂ
  | .num re im => ⟨re, im⟩
  | .pi => Real.pi
  | .var x => ρ.var x
  | .add a b => eval ρ a + eval ρ b
  | .mul a b => eval ρ a * eval ρ b
  | .pow e k => eval ρ e ^ k
  | .inv e => (eval ρ e)⁻¹
  | .conj e => (starRingEnd ℂ) (eval ρ e)
  | .fn f e => ρ.fn f (eval ρ e)

end Qadence.Spec
