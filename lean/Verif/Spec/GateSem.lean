import Mathlib.Analysis.SpecialFunctions.Exp
import Mathlib.Analysis.Normed.Algebra.MatrixExponential
import Verif.Spec.BlockSem
import Verif.Spec.Bits
import Verif.Model.Gate

/-!
# Operators of the primitive blocks (specification)

Textbook definitions of the gates; independent of the matrices in qadence.
-/

namespace Qadence.Spec

open Matrix Complex

variable {n : ℕ}

/-- 0 or 1 as a complex number. -/
def ind (p : Prop) [Decidable p] : ℂ := if p then 1 else 0

/-- Matrices of one-qubit operations; rows and columns are indexed by the bit. -/
noncomputable def mat1 : FixedGate → Matrix Bool Bool ℂ
  | .I => 1
  | .X => fun a b => ind (a ≠ b)
  | .Y => fun a b => if a = b then 0 else if a then I else -I
  | .Z => fun a b => if a = b then (if a then -1 else 1) else 0
  | .H => fun a b => (if a && b then -1 else 1) / (Real.sqrt 2 : ℝ)
  | .S => fun a b => if a = b then (if a then I else 1) else 0
  | .SDagger => fun a b => if a = b then (if a then -I else 1) else 0
  | .T => fun a b => if a = b then (if a then exp (I * Real.pi / 4) else 1) else 0
  | .TDagger => fun a b => if a = b then (if a then exp (-(I * Real.pi / 4)) else 1) else 0
  | .Zero => 0
  | .N s => fun a b => ind (a = s ∧ b = s)

/-- Matrices of the one-parameter rotations. -/
noncomputable def matRot (θ : ℂ) : RotGate → Matrix Bool Bool ℂ
  | .RX => fun a b => if a = b then cos (θ / 2) else -I * sin (θ / 2)
  | .RY => fun a b => if a = b then cos (θ / 2) else if a then sin (θ / 2) else -sin (θ / 2)
  | .RZ => fun a b => if a = b then (if a then exp (I * θ / 2) else exp (-(I * θ / 2))) else 0
  | .PHASE => fun a b => if a = b then (if a then exp (I * θ) else 1) else 0

/-- Number encoded by bits, most significant first. -/
def bitsValue {k : ℕ} (a : Fin k → Bool) : ℕ := (List.ofFn a).foldl (fun acc b => 2 * acc + b.toNat) 0

/-- The operator of a gate on a register. -/
noncomputable def gateDen (ρ : Env) : Gate → Oper n
  | .fixed g q => embed1 q (mat1 g)
  | .rot g q θ => embed1 q (matRot (eval ρ θ) g)
  | .u q φ θ ω =>
    embed1 q (matRot (eval ρ ω) .RZ * matRot (eval ρ θ) .RY * matRot (eval ρ φ) .RZ)
  | .swap a b => swapOp a b
  | .proj ket bra qs => embed (fun i : Fin qs.length => qs[i])
      (Matrix.of fun a b => ind ((∀ i : Fin qs.length, a i = ket.getD i false) ∧ ∀ i : Fin qs.length, b i = bra.getD i false))
  | .matrix rows qs => embed (fun i : Fin qs.length => qs[i])
      (Matrix.of fun a b => eval ρ (((rows.getD (bitsValue a) []).getD (bitsValue b)) (.num 0 0)))
  | .control _ cs g => controlled cs (gateDen ρ g)

/-- The operator generated by `G` during time `t`: exp(-i t G). -/
noncomputable def evolution (t : ℂ) (G : Oper n) : Oper n := NormedSpace.exp ((-I * t) • G)

end Qadence.Spec
