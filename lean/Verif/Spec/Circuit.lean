import Verif.Spec.GateSem
import Verif.Spec.Params

/-!
# Expectation values as functions of one parameter (specification)
-/

namespace Qadence.Spec

open Matrix

variable {n : ℕ}

/-- Change the value of one parameter. -/
def Env.set (ρ : Env) (u : String) (x : ℂ) : Env := { ρ with var := Function.update ρ.var u x }

/-- The parameters occurring anywhere in a gate. -/
def gateVars : Gate → List String
  | .fixed _ _ => []
  | .rot _ _ θ => θ.freeSymbols
  | .u _ φ θ ω => φ.freeSymbols ++ θ.freeSymbols ++ ω.freeSymbols
  | .swap _ _ => []
  | .proj _ _ _ => []
  | .matrix rows _ => rows.flatten.flatMap Expr.freeSymbols
  | .control _ _ g => gateVars g

/-- The parameters occurring anywhere in a primitive block, also inside of generators. -/
def primVars : Prim → List String
  | .gate g _ => gateVars g
  | .hamEvo gen t => gather gateVars Expr.freeSymbols gen ++ t.freeSymbols

/-- The parameters occurring anywhere in a block. -/
def vars (b : Block Prim) : List String := gather primVars Expr.freeSymbols b

/-- The primitive block `l` occurs in the block, below chains, krons and scale blocks only, and nothing else in the block
depends on the parameter `u`. -/
inductive OnlyIn (u : String) (l : Prim) : Block Prim → Prop
  | leaf (t : Option String) : OnlyIn u l (.leaf l t)
  | scale {b : Block Prim} (s : Expr) (t : Option String) : OnlyIn u l b → u ∉ s.freeSymbols → OnlyIn u l (.scale b s t)
  | comp {b : Block Prim} (k : CKind) (hk : k ≠ .add) (pre post : List (Block Prim)) (t : Option String) :
      OnlyIn u l b → (∀ c ∈ pre, u ∉ vars c) → (∀ c ∈ post, u ∉ vars c) → OnlyIn u l (.comp k (pre ++ b :: post) t)

/-- The expectation value of `O` after applying `U` to the state `ψ` (real part; for Hermitian `O` there is no other). -/
noncomputable def expVal (O : Oper n) (ψ : St n → ℂ) (U : Oper n) : ℝ :=
  (star (U *ᵥ ψ) ⬝ᵥ (O *ᵥ (U *ᵥ ψ))).re

end Qadence.Spec
