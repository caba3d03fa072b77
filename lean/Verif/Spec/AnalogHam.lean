import Verif.Spec.Analog
import Verif.Proofs.GateSem
import Verif.Props.Register

/-!
# Rydberg Hamiltonians and analog execution (specification)

The documented Hamiltonian (qadence/analog/device.py:13-22) is the sum over all qubits of
`Ω/2 (cos φ X - sin φ Y) - δ N` plus the interaction, which is the sum over all unordered pairs of `C6 / R^6 N N` or
`C3 / R^3 (X X + Y Y)`.
-/

namespace Qadence.Spec

variable {n : ℕ}

/-- The functions of sympy which occur in the Hamiltonians have their usual values. -/
structure StandardFns (ρ : Env) : Prop where
  cos : ∀ z, ρ.fn "cos" z = Complex.cos z
  sin : ∀ z, ρ.fn "sin" z = Complex.sin z
  exp : ∀ z, ρ.fn "exp" z = Complex.exp z
  abs : ∀ x : ℝ, ρ.fn "Abs" x = (|x| : ℝ)
  heaviside : ∀ x : ℝ, ρ.fn "Heaviside" x = ((if x < 0 then 0 else if x = 0 then 1 / 2 else 1 : ℝ) : ℂ)

/-- The unordered pairs of nodes, each once with the smaller number first. -/
def nodePairs (r : Register) : Finset (ℕ × ℕ) :=
  (r.labels.toFinset ×ˢ r.labels.toFinset).filter fun e => e.1 < e.2

/-- The van-der-Waals interaction of atoms at the positions `P`. -/
noncomputable def vanDerWaals (c6 : ℝ) (P : ℕ → ℝ × ℝ) (r : Register) : Oper n :=
  ∑ e ∈ nodePairs r, ((c6 / euclid (P e.1) (P e.2) ^ 6 : ℝ) : ℂ) •
    (embed1 e.1 (mat1 (.N true)) * embed1 e.2 (mat1 (.N true)))

/-- The dipolar interaction of atoms at the positions `P`. -/
noncomputable def dipolar (c3 : ℝ) (P : ℕ → ℝ × ℝ) (r : Register) : Oper n :=
  ∑ e ∈ nodePairs r, ((c3 / euclid (P e.1) (P e.2) ^ 3 : ℝ) : ℂ) •
    (embed1 e.1 (mat1 .X) * embed1 e.2 (mat1 .X) + embed1 e.1 (mat1 .Y) * embed1 e.2 (mat1 .Y))

/-- The drive of one qubit. -/
noncomputable def driveOne (Ω δ φ : ℂ) (i : ℕ) : Oper n :=
  (Ω / 2) • (Complex.cos φ • embed1 i (mat1 .X) - Complex.sin φ • embed1 i (mat1 .Y)) -
    δ • embed1 i (mat1 (.N true))

/-- The drive of a list of qubits. -/
noncomputable def driveOp (Ω δ φ : ℂ) (qs : List ℕ) : Oper n := (qs.map (driveOne Ω δ φ)).sum

/-- The qubits driven by a rotation. -/
def driven (r : Register) : QSupport → List ℕ
  | .global => r.labels
  | .loc qs => qs

/-- The drive of a primitive analog block; an interaction block drives nothing. -/
noncomputable def partDrive (ρ : Env) (r : Register) : ABlock → Oper n
  | .rotation _ o d φ s _ => driveOp (eval ρ o) (eval ρ d) (eval ρ φ) (driven r s)
  | _ => 0

/-- A primitive analog block which lasts `t` and asks for the pattern as told by `p`. -/
inductive PrimPart (ρ : Env) (t : ℂ) (p : Bool) : ABlock → Prop
  | interaction {d : Expr} (s : QSupport) : eval ρ d = t → PrimPart ρ t p (.interaction d s p)
  | rotation {d : Expr} (o δ φ : Expr) (s : QSupport) : eval ρ d = t → PrimPart ρ t p (.rotation d o δ φ s p)

/-- The evolution which a block documents, for a register with interaction `H` and addressing pattern `A`. Durations are
in nanoseconds and frequencies in 1/microseconds. The parts of a chain follow each other; the parts of a kron are
primitive blocks of equal duration and run at the same time. -/
inductive Runs (ρ : Env) (r : Register) (H A : Oper n) : ABlock → Oper n → Prop
  | interaction (t : Expr) (p : Bool) :
      Runs ρ r H A (.interaction t .global p) (evolution (eval ρ t / 1000) (H + if p then A else 0))
  | rotation (t o d φ : Expr) (s : QSupport) (p : Bool) : Runs ρ r H A (.rotation t o d φ s p)
      (evolution (eval ρ t / 1000) ((H + if p then A else 0) + driveOp (eval ρ o) (eval ρ d) (eval ρ φ) (driven r s)))
  | nil : Runs ρ r H A (.chain []) 1
  | cons {b : ABlock} {bs : List ABlock} {U V : Oper n} : Runs ρ r H A b U → Runs ρ r H A (.chain bs) V →
      Runs ρ r H A (.chain (b :: bs)) (V * U)
  | kron {b : ABlock} {bs : List ABlock} {t : ℂ} {p : Bool} : (∀ c ∈ b :: bs, PrimPart ρ t p c) →
      Runs ρ r H A (.kron b bs)
        (evolution (t / 1000) ((H + if p then A else 0) + ((b :: bs).map (partDrive ρ r)).sum))

/-- Is the block a rotation? -/
def isRotation : ABlock → Bool
  | .rotation _ _ _ _ _ _ => true
  | _ => false

end Qadence.Spec
